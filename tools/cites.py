#!/usr/bin/env python3
"""Check the citations in the comments of the model: `file.rs:N-M` followed by a name in backquotes must be a range of lines of a
file of /repo in which the last part of the name is written.  Prints those which are not."""
import glob, os, re, sys

REPO = sys.argv[1] if len(sys.argv) > 1 else "/repo"
VERIF = os.path.join(os.path.dirname(os.path.abspath(__file__)), "..", "lean", "Verif")
files = {}
for root, dirs, names in os.walk(REPO):
    if ".git" in root.split(os.sep):
        continue
    for n in names:
        if n.endswith((".rs", ".py")):
            files.setdefault(n, []).append(os.path.join(root, n))
cite = re.compile(r"([A-Za-z0-9_\-/]+\.(?:rs|py)):(\d+)(?:-(\d+))?(?:,? `([^`]+)`)?")
total = bad = 0
for path in sorted(glob.glob(os.path.join(VERIF, "**", "*.lean"), recursive=True)):
    text = open(path).read()
    for m in cite.finditer(text):
        total += 1
        where = "%s:%d" % (os.path.relpath(path, VERIF), text.count("\n", 0, m.start()) + 1)
        name, first, last, what = m.group(1), int(m.group(2)), int(m.group(3) or m.group(2)), m.group(4)
        found = [f for f in files.get(os.path.basename(name), []) if f.endswith("/" + name)]
        if not found:
            print(where, m.group(0), "no such file"); bad += 1; continue
        ok = False
        for f in found:
            lines = open(f).read().split("\n")
            if first <= last <= len(lines):
                body = "\n".join(lines[first - 1:last])
                word = re.split(r"::| |\(|<", what.strip())[-1] if what else ""
                word = re.sub(r"[^A-Za-z0-9_].*$", "", word)
                starts = [i + 1 for i, l in enumerate(lines) if word and re.search(r"\bfn %s\b" % word, l)]
                if word in body and (len(starts) != 1 or last < starts[0] or first > starts[0] or first + 3 >= starts[0]):
                    ok = True
                    if len(starts) == 1 and first <= starts[0] <= last:
                        ind = re.match(r" *", lines[starts[0] - 1]).group(0)
                        end = next(i + 1 for i in range(starts[0] - 1, len(lines)) if lines[i].rstrip() == ind + "}")
                        if last != end and (first == starts[0] or last < end) and not (m.group(0).count("`") and "," in m.group(0)):
                            print(where, m.group(0), "ends at", end)
        if not ok:
            print(where, m.group(0), "not there"); bad += 1
print("%d citations, %d wrong" % (total, bad))
