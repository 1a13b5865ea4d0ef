/.lake/
**/.lake/
lake-manifest.json
