# Design: a Lean 4 model of logreduce-rust

The code in `/repo` is read as text and transcribed, function by function, into total Lean
functions under `lean/Verif/`.  Each area has

* `Model.lean`  – the transcription (every definition cites file and lines),
* `Spec.lean`   – a small independent specification written from the English property,
* helper lemmas in `Lemmas.lean` and other files,
* `Props.lean` (and the files named below) – the property theorems (named `Cnn_…`), the concrete
  non-vacuity examples and, where the code violates the property, the counterexample theorem.

Conventions.  `&mut self` methods return the new state.  A panic is an explicit value.  `Result`
and `Option` stay data.  `usize` is `Nat` unless the property is about wrap-around.  `HashMap` /
`HashSet` iteration order is an arbitrary permutation.  External calls (network, file system,
regex on Unicode tables, URL join, hashing) are parameters; what is assumed about them is written
where they are introduced.  Rust `&str` is `List Char` with `len()` the UTF-8 length.

Status words: *proved* = full statement; *partial* = the full statement is false of the code (then
the negation is proved on a concrete witness next to the restricted theorem) or needs a hypothesis
that the code does not guarantee.  The full statement stays in the file as a definition, or as the
negated statement of the `_false` theorem.

## Plan per property

| id | model | proof |
|----|-------|-------|
| C01–C08, C90–C92 | `Iterator`: `BytesLines` as a state machine over a list of read results (bytes / error), with the buffer, `prev_pos`, `escaped`, JSON state, explicit panics, wrapping/checked arithmetic | refinement of the buffered scanner to a one-pass splitter (`Spec.pieces`), invariants for the bounds; counterexamples for the drop path; simulation between two readers with a common beginning (`Local`); the nested calls are bounded by a potential, the bytes and results still to read and the bytes of the buffer which are no filling (`Work`) |
| C09–C16, C71 | `Tokenizer`: all regexes as data with a derivative based matcher (`Regex`) proved equal to the denotational language; `do_process` by well-founded recursion on word length | induction on the recursion; word-locality then gives the two-line properties |
| C17–C23 | `Index`: sparse vectors as sorted association lists over an arbitrary hash; distances in exact reals and under any arithmetic with error bounds (`Float`) | Cauchy–Schwarz for ±1 vectors, fold lemmas, error analysis of the float sums |
| C24–C34, C72, C73 | `Process`: trainer and processor as in the code, constants 512 and 3, index search as a parameter | simulation of the chunked buffer by the absolute line positions |
| C35–C39, C74, C75 | `Report`: grouping, lookup, training and report loops with open/read outcomes as parameters | fold invariants, permutation invariance |
| C40–C46, C76, C77 | `Paths`: index names, filters, readers, inputs, directory walk, baseline discovery | list lemmas; counterexamples |
| C47–C51, C78 | `Crawler`: site = function from URL to page; pool as a transition system over pending tasks and a FIFO channel; iterator as interleaved small steps; link extraction | invariants over all schedules, measure for termination, racy trace as witness |
| C52–C57, C79 | `Cache`: file system as finite map with open files, gzip as data plus "ends properly", crash = keeping any prefix of the writes; users of the cache | operation-history invariants |
| C58–C64 | `Zuul`: scores, selection, URL recognition, JSON fields, f32 durations, dates | sorting lemmas, calendar arithmetic, string lemmas |
| C65, C66, C81–C84 | `Output`: the tree of the HTML report and the texts of the live output, `usize` wrap-around explicit | composition with `Process` and `Iterator`: the lines shown are those of the file |
| C67, C85, C86, C89 | `Cli`: the commands over a file system with denied paths, a full disk, other processes and crashes | case analysis, history induction, instance with `Codec` |
| C68 | `Cli/Dataset`: evaluation of datasets, on top of `Report` and `Process` | list lemmas |
| C69 | `Generate`: over any random generator with the contracts of `rand` | induction over the random stream, composition with `Iterator` |
| C87 | `Python`: sessions of the python module, with the matrices as bits in memory | induction over the calls; correspondence of bits and numbers; `Codec` |
| C88 | `Whole`: the parts put together, from the bytes of the files to the report | composition of the theorems of `Iterator`, `Process`, `Index`, `Report` |
| C93 | `Saved`: the report computed from a model as it is in a file (matrices, not lines) | simulation with the report of `Report`; bits and numbers of `Python`; `Codec` and `Cli` for the runs |
| C94 | `Render`: `PathBuf::set_extension`, the report in memory (bits, 64-bit numbers), its page, and the `render` program | the distances are numbers of `f32`, so the report kept in memory has the page of the report; `Codec` gives the report back; C89 for the files; false when the page is named `x.json` |
| C95 | `Output/Document`: the whole document as a tree of elements with attributes; `Render` for the texts of paths and URLs | every attribute is a constant, a colour, or a link; an exact condition on the quotes in names; false for a path with a quote |
| C96 | `Output/Document`: links and places | all the ids of the document are known; false: the links to the models have no place |
| C97–C99, C103 | `Program`: all the commands over abstract contents (`Model`), composed of `Cli`, `Paths`, `Report` and `Output` | which errors each step can give; the training of `Report`; sorting of a partition; simulation between the output modes; false for the commands which are `todo!()` and for `diff` without a source |
| C100–C102 | `Program/LocalModel`: the same with the local files of `Whole` and the page of `Output/Document` | composition of `Iterator`, `Process`, `Index`, `Report`, `Output`, `Cli` into one statement about the command; false for names which start with `http` |
| C104–C106 | `Remote`: training and report with the sources listed and opened through the cache of `Cache`, the lines read by `Iterator` as far as the consumer asks | what a run leaves in the cache gives its lines again (`Again`, `Lift`), entries only grow (`Grows`), then the theorems of `Report`; simulation between a run with and a run without the cache (`Same`, `SameLift`); false with witnesses from bytes to report (`Witness`) |
| C112, C113 | `Remote/Web*`: the command `url` for a build, `from_url`, `get_build`, `get_builds`, `discover_baselines` and the check of the logs through the cache, composed with the decoding and the scores of `Zuul` and the comparison of `Remote` | the answers are those of a site (`WebSame`), so the choice is `Zuul.Spec.Best`; the simulation of C105 extended to the answers of the API and of HEAD |
| C116 | `Remote/WebFails`: the same command, the outcomes other than a report | the same reduction to the answers of a site (`compareUrl_off`); each cause is an inductive predicate over the URL and the answers |
| C117 | `Shared/Model`: any number of jobs (a content, a listing, a HEAD request) on one cache directory, one system call at a time, with kills, removals and failures of the disk; a compressed file is its bytes, flate2 is `Gz` (`GoodGz`, `Checked`: what is assumed of it) | an invariant of the states, for two relations between a file and the full one: prefix (no race), and prefix with zeros (races); the race on a listing is a witness |
| C118 | the same model | each byte of a file is right or some job is going to write it: when no job writes, the file is complete; witnesses for the failures |
| C119 | `Saved/Live`: `process_live` with a model in memory | the environment of a kept index is the one of the trained index (C93), then by induction on the sources |
| C120 | `Report/Listing`: two worlds which differ by the order of the listings | the index is a set of lines (C20) and a group is a list of lines whose anomalies are the first lines of their tokens (C38): both are compared up to permutation; false for which of equal lines is shown, after an unreadable source, and for mixed JSON |
| C121 | `Program/Tools`: the commands `test` and `debug-*` of `Program`, and `Cli/Dataset` | case analysis of the commands, with C35 and C68 |
| C122 | `Output/Document`: the whole tree of elements; `Output/Resources`: the elements which are not plain layout | the container has only plain elements, by traversal; the rest is constant; exact text of the attributes from C95; false for a path with a quote |
| C123 | `Output/Clicks`: the script `JS` and the functions of jQuery it calls, as changes of a tree with classes; the bubbling of clicks; `Output/Browser`: the attributes which a browser reads in the text of a tag | the page after any clicks is the page written with some items open and debug shown or not: invariant by induction on the clicks; only three places have handlers; a page whose attributes are single (C95) is read as it is; false for a path with a quote |
| C124 | `Program/Usage`: the options, commands and arguments as declared for `clap`, and its loop over the words | an inductive grammar of the command lines (`Spec.Line`); the parser accepts exactly it, by induction on the words; what the program does otherwise |
| C125 | `Iterator/Exact`: the three functions of the iterator, the one which drops a line included | `Spec.seen` folds the reads into the content which is seen; the refinement of `C02` is extended to the states in which a line is dropped, by induction on the calls |
| C126 | `Process/Exact`: the processor of `Process`, against `Spec.reported` | a simulation between the state of the processor and the progress of the specification, by induction on the results of the reader; a context without successor is complete |
| C127 | `Report/Exact`, `Report/Learned`, `Whole/Exact`, `Whole/Trees`: `Model.report` against `Spec.said`, and two files against `Spec.shown` of the lines of C125 | C128 for each source, induction on the sources of a group with the tokens met so far, then the groups by name; the reader of a file is given by C125 |
| C128 | `Process/Shown`, `Process/Small`: the processor of `Process`, against `Spec.shown` | one search is a fold over the lines of the chunk (`doSearch_shows`: induction on the lines, with the lines waiting for the next target); then a simulation by induction on the results of the reader |
| C114 | the same model, on any network the second time (`WebAgain`): what a run keeps in the cache (`Later`), through the API documents, HEAD and the comparison | each step which succeeded is answered by the cache in every later state; the order of the builds does not depend on the day once they have ended |
| C129 | the texts printed by the commands of `Program` with a report file (`Program/Announce.lean`) | the two outcomes of a comparison, with or without a model; all texts but the announcement are progress |
| C130 | `Output/Exact`: the live output against `Spec.live`; `Output/Rows`: the rows of the page; `Program/Exact`: the commands on local files and directories | C128 for each source, induction on the sources with the counters; the rows by induction on the lines of a context whose numbers fit in 64 bits (C128_small); composed with C127_trees, C83 and C129 |
| C131 | `Process/More`: the specification of C126 with two distances, one never over where the other is not; `Report/More`, `Whole/More` | simulation between the two runs: what the run with smaller distances holds is among what the other one holds or has just reported; composed with C126/C128 for each source, C127 for the report, `baselineFor` and `learned` for the two trainings, and the monotonicity of the distances (C21) |
| C132 | `Report/Kinds`, `Whole/Kinds`: two worlds which differ in their listings and in how sources are opened, equal on the sources of one name | congruence of the training of one index and of the specification `said` of C127 on the sources of the name; the lookup of C15 (`baselineFor`); C127 for both reports |
| C133 | `Process/Grown`, `Iterator/Grown`, `Report/Grown`, `Whole/Grown`: the specification `shown` of C128 for a sequence of results and a longer one; the pieces of a content and of a longer one | induction over the results with the invariant that everything found so far is kept (`Kept`), composed with C127/C128; `split` after an unescaped line return starts a new piece whatever follows |
| C134 | `Report/Known`, `Whole/Known`: what is known for a name (`knownFor`: C36 lookup, C75 tokens) as a set | equal sets give equal distances (C20), then C127 for both reports |
| C135 | `Process/Alike`, `Report/Alike`, `Whole/Alike`: two targets related line by line by `Alike` (same number, same tokens, both marker lines or not, both no text or not) | the closed form `shown` of C128 commutes with normalising all the lines of the contexts; lifted to `said` and to reports by C127 |
| C136 | `Verif/Report/Model.lean`, `Verif/Whole/Model.lean`, `Verif/Iterator/Model.lean`: two targets, with other files | what is found for a name is the list of the first occurrences of the normalised lines of its files, filtered by distance (`found_normals`); equal sets, equal lists and included sets of such lines are then compared. For bytes: the lines of a cut log are those of its parts |
| C137 | `Verif/Program/Model.lean` (`Tool.run` for the debug commands and `diff`), `Verif/Whole/Model.lean` | the texts printed by the debug commands are the tokens, names and lines of the machine (C121, C99); a reported line is at a distance over the threshold, a known one is not, and a token is reported once (`C33_report`) |
| C138 | `Verif/Index/Spec.lean` (`vec`, `cosine`), `Verif/Whole/Model.lean`, `Verif/Program/Model.lean` | when the words have different columns, the scalar product of two lines is the number of their common words (a sum over the image of an injective map, the signs cancel); the bounds are those of the threshold, widened by the rounding errors of a line of 84001 words (C14 bounds the words of a line of 6000 bytes) |
| C139 | `Verif/Report/Model.lean` (`train`), `Verif/Saved/Model.lean` (`keep`), `Verif/Whole/Model.lean` | a relation between two executions: the trainers agree but for the bytes after each line (induction on the lines), hence the indexes, the groups, the model and what is kept of it (the names of the indexes are distinct, so the map has the pairs in the same order) |
| C140 | `Verif/Report/Model.lean` (`train`, `report`), `Verif/Whole/Model.lean` | the trainer stops at the first failure with the state it has (induction on the lines), so the model is that of shortened files; what is learned is then a part of what the whole files teach, and distances only grow (as C131). The full statement is false, by a witness of two lines |
| C141 | `Paths/Exact`: the names of a path and the rules as inductive relations | the components of the program are the names after the root or a dot; each rule is one branch of the program, the trimming of symbols and extensions is characterised by a decomposition of the string |
| C142 | `Report/Lost`: the report in a world where files of the target are not opened or interrupted | the visible lines of an interrupted file are a prefix of its lines, windows of a prefix are windows of the whole; a run which is interrupted ends with an error, so that without error the runs are equal; completeness of what is found without failures (C136) |
| C143 | `Report/Lost`: the same world as C142 | refuted by two files with a common line, the first one failing after it; in part: the tokens known after an interrupted reading are those of the file, so that a line which is not found is in a file whose error is told |
| C144 | `Whole/Replay`: the composed program of `Whole/Model` | two lines which are the same but for volatile words have the same tokens (C12, C13, C15); by the distances of the trained model (C127) a line with the tokens of a learned one is at a distance under the threshold, and reported tokens are distinct (C33) |
| C145 | `Remote/Direct`, `Remote/Mirror`, `Remote/Orders`: the program with the network and the cache of `Remote/Model` against the composed local program of `Whole/Model` | with a cache which holds what the servers hold each step gives what the pure program on the contents of the servers gives; that program and the local one are related by the relation of files and URLs (C108), since the relative path below a base is the same on both sides; other orders of the listing by composition with C120 |
| C146 | `Remote/Online`: the program with the network and the cache of `Remote/Model` | by the steps of C145 the comparison is the pure program on the contents of the servers; C75 and C127 say of that program when it succeeds and what it reports |
| C147 | `Crawler/Load`: the transition system of `Crawler/Model`, with the URLs of the jobs which are taken | an invariant on the number of running workers; backwards on the schedule, the requests to come are the pages below the jobs queued or to be submitted; refuted for single requests by a family of sites |
| C148 | `Remote/Requests`: the counter of requests of `Remote/Model` | each opening adds at most one, exactly one without the cache; by induction on sources and groups, then the groups are counted by the names which have an index |
| C149 | `Codec/Kinds`: `load` of the codec of one type on what the other wrote | the fields are followed byte by byte: a number of variant above two, or a length above 4 GiB, is refused because a reading never consumes less than a byte by element; witness by computation |
| C150 | `Remote/Received`: the comparison with a network which answers each request in its own way (`Remote/Model`), and the comparison of a machine (`Report/Model`) whose files hold what was received | induction over the sources, groups and contents, keeping for each source the request which answered it; then C37 and C38 of that machine |
| C151 | `Output/Reduction`: the counts of `Report/Model` and the expression of the page with the rounding of `f32` (`Index/F32`) | the anomalies of a source are counted along C126; the rounding is monotone and exact on small numbers, its error is bounded; witness: an empty file |
| C152 | `Codec/Damaged`: the data, the checksum (CRC-32) and the size of a compressed file, read byte by byte until there is a value | a value which is decoded from some bytes is decoded from more of them (the laws of the codecs), so that no read follows the last byte of the value; witness by computation with the real checksum |
| C153 | `Codec/Matrices`: the check of a matrix which is read (`RawMatrix.valid` of `Codec/Model`) | the check on consecutive elements is equivalent to a specification by positions; round trip of the numbers |
| C115 | the commands `path`, `url`, `diff` and `train` of `Program` (`Program/Agree.lean`) | equality of the two runs: the models used are the same, and then the files differ only by the file of the model |
| C107 | `Tokenizer/Rules`: an inductive relation between a word, its reading and whether there is something to keep | the relation is functional and total, by strong induction on the length of the word; `process` of `Tokenizer` computes it |
| C108 | `Whole` with two machines; `Report/Relate` relates reports under other names | a renaming of the sources which keeps what the program uses of them gives a renamed report (parametricity of `train` and `report`), then the orders of the maps by C39; `Paths/Below`: what the program uses of a path below a neutral directory does not depend on the directory; false below an `etc` |
| C109 | `Zuul/Builds`: the relation between an object and a build, and between a text and a time | each decoder of a field is an equivalence, then one step per field; the scanner of numbers is greedy, and the separators are not digits |
| C110 | `Render`, `Output` | the links of an item are in the document; the text of a source is its location when it is UTF-8; false otherwise |
| C111 | `Render`, `Output` | the title and the rows are in the document; a name of a content is read back; false for paths which are not UTF-8 |
| C70, C80 | `Codec`: bincode 1.3 default encoding combinators | round-trip and prefix-freeness per combinator |

Nothing in the list is outside what a model can express.

## Trusted base

* Lean 4.33.0's kernel, and the reading of the Rust source into the models.  Nothing is compiled or
  executed from `/repo`; no correspondence test exists.  The correspondence is by the citations of
  file and lines on each definition.
* Axioms: every theorem of the manifest depends on at most `propext`, `Classical.choice` and
  `Quot.sound`; `AXIOMS.md` (written by `tools/axioms.py`) has the list per theorem.  There is no `sorry`, no
  axiom of ours, no `native_decide` and no `bv_decide`.  Concrete examples and witnesses use
  `decide +kernel` or `rfl`, which the kernel evaluates.
* Mathlib is used for its lemmas (checked by the kernel).

### What is modelled

| source | modelled | not modelled |
|--------|----------|--------------|
| `iterator/src/iterator.rs` | all of `BytesLines`, debug and release arithmetic, the depth of the nested calls | the size of the stack frames; the `log` calls |
| `tokenizer/src/tokenizer.rs` | all functions and all regexes | the `regex` crate itself (its patterns are modelled by their languages and leftmost matches), the Unicode tables (`\w` is a parameter, white space is listed) |
| `index/src/index.rs` | `index`, `search`, `index_mat`, `search_mat`, `search_mat_chunk`, `vectorize`, `create_mat`, `similarity`; saved form in `Codec` | `fxhash` (any function), `sprs` (its vectors, products and norms are modelled by definition); f32 is its set of finite numbers with rounding to nearest (`Index/F32`), without infinities and NaN |
| `model/src/process.rs` | all | messages of `tracing` |
| `model/src/model.rs` | sources, contents, index training, model training, lookup, report, save/load, output modes | clocks, `tracing` |
| `model/src/files.rs`, `urls.rs`, `reader.rs` | all | operating system |
| `model/src/zuul.rs`, `zuul/src/zuul-build.rs` | scores, choice, URL recognition, API calls through the cache, decoding and encoding of the builds on JSON values | JSON text, the calendar of `chrono` is modelled, its text parsing is modelled for the format used |
| `httpdir/src/httpdir.rs` | link extraction, URL normalisation, crawler, iterator, `Crawler::list` | `reqwest`, `url` (join is a parameter), threads below the level of channel, queue and counters |
| `cache/src/cache.rs` | all, with crashes; several processes at the same time, with failures of the disk, in `Shared` | SHA-256 (no collision among the URLs used) |
| `report/src/report.rs` | the tree given to `html_builder`, head, navigation and scripts included; the script `JS` in a browser (`Output/Clicks`) | its serialisation (in particular the escapes of texts and attributes), the text of `style.css` but for its rule on `debuginfo`, the style sheets and the scripts which the page loads but for the functions of jQuery called by `JS` |
| `report/src/render.rs` | yes (`Render/Model.lean`) | what it prints |
| `cli/src/main.rs` | `main`, all the commands (`Program`), `process`, `process_live`, `debug_groups` | the messages of `tracing` (which also go to the standard output), and what was printed before a panic; `clap` is modelled for these declarations (`Program/Usage`), without its messages and without words which are not UTF-8 |
| `cli/src/dataset.rs` | all | YAML |
| `generate/src/generate.rs` | all | ChaCha |
| `python/src/bindings.rs` | all, as sessions of calls over opaque values (`Python`); the bits of f32 | pyo3 and the types of python values other than these (`PyCapsule::reference` is unchecked, a panic is an exception); distances for loaded matrices with NaN or infinities |

### Assumptions about the environment

* `read` returns at most the size asked for and 0 only at the end (`Iterator`).
* `std::str::from_utf8` is a partial function of the bytes (`Process`); the conversions agree.
* `GzDecoder` looks at the checksum and the size of a file in the read which follows the last byte of its data, and `bincode` reads no byte after those of a value (`Codec/Damaged`).
* `sprs` checks the structure of a matrix when it is deserialised, as `RawMatrix.valid` says (`Codec`, C153).
* `GzEncoder` ignores errors in its drop, and keeps some of the last bytes until then (`Cli`); a compressed file which
  was not finished gives a prefix of its data and then an error (`Cache`).
* A file which is removed stays readable by those who opened it (`Cache`).
* `ThreadPool::join` returns only at a time when no job is queued or running, and `panic_count` counts the panic of a worker from the time it is no longer
  active (`Crawler`).  This is the documented contract of the crate `threadpool`, whose source is not here; an implementation which loads its counters one after
  the other does not keep it, and then C47 fails (`C47_needs_join`).  The loads of `active_count` and `queued_count` in the iterator are modelled one by one.
* The site does not change during a crawl (`Crawler`); the availability of a URL does not change during one discovery (`Zuul`).
* f32 operations round to a nearest binary32 number, whatever the rule for ties, with or without fused multiplications (`FP.IsF32`); the error bounds (`FP.Standard`) are derived from it in `Index/F32.lean`; rounding is monotone (`Output`).

## Disagreements between the code and the properties

Each is proved on the model, with the real constants, by the theorem named.

| property | what happens | theorem |
|----------|--------------|---------|
| C151 | the page of a report on files without lines shows "NaN% reduction" | `C151_false` |
| C152 | a saved model with a changed byte is loaded as another model, its checksum is not looked at | `C152_false` |
| C17 | matrix search returns -2^-23 for a known line of ten words | `C17_f32_false` |
| C87 | a value of the other kind given to `search_mat` is undefined behaviour | `C87_false` |
| C03, C05, C07 | after an over-long line cut by a read, the next line is lost or cut, numbers shift, a line before an error is lost | `C03_C05_full_read_lost`, `C05_neighbour_lost`, `C05_neighbour_corrupted`, `C07_line_lost_before_error` |
| C08 | debug builds: an underflow panics | `C08_debug_panics` |
| C92 | skipped lines are nested calls: no bound on the stack | `C92_false` |
| C91 | a line which ends with a backslash takes the next one with it, and the numbers are too low from there on | `C91_false` |
| C27 | the after context stops at the end of a chunk | `C27_false` |
| C28 | contexts overlap after 10 chunks of known lines | `C28_false` |
| C31 | a line after the marker is reported | `C31_false` |
| C32 | a read error drops the anomalies of the current chunk, and their duplicates in the next sources | `C32_false` |
| C38, C81 | a source which can't be opened ends the loop over its group (over all the sources in the live output) | `C38_false`, `C81_false` |
| C41 | `.gz` after a digit or a symbol is in the index name | `C41_false` |
| C43 | the extension is compared with ".gz": no local file is ever decompressed | `C43_false` |
| C44 | a listed URL shorter than 42 bytes panics when opened | `C44_false` |
| C45, C46 | names which are not UTF-8, URLs above the listed one, paths starting with "http" panic | `C45_false`, `C46_false` |
| C50 | the crawling iterator ends before everything is yielded | `C50_false` |
| C51 | links out of the starting directory are followed | `C51_false` |
| C52 | two `head_set` with different results are both accepted | `C52_false` |
| C54 | a reader closed early is served as complete | `C54_false` |
| C56 | a crash while a listing is written makes it fail for ever | `C56_false` |
| C59, C60 | the same change can be its own baseline; builds without a change panic | `C59_false`, `C60_false`, `C60_lookup_false` |
| C62 | `/t/` or `/build/` elsewhere in a zuul URL gives a wrong API URL | `C62_false`, `C62_whitelabel_false` |
| C63 | durations above 2^24 s are rounded | `C63_false` |
| C65 | blank lines shift the numbers of the contexts; a line cut in pieces underflows | `C65_blank_line`, `C65_pieces`, `C65_false` |
| C66 | the live output numbers context lines one too low | `C66_line_zero`, `C66_false` |
| C67 | the raw report can replace the model; a race replaces the model of another process | `C67_false`, `C67_race` |
| C74 | a group which mixes JSON and other sources reports its own baseline | `C74_false` |
| C79 | an error page of a web server is read and cached as the log | `C79_false` |
| C85 | a save which fails in its last bytes succeeds | `C85_false` |
| C94 | a page named `x.json` is written over the raw report | `C94_false` |
| C95 | a quote in a path ends the attribute of its link | `C95_false` |
| C96 | the links to the models lead nowhere | `C96_false` |
| C97 | `journald` and `current-build` panic | `C97_false` |
| C98 | `diff` without a source compares with nothing and succeeds | `C98_false` |
| C102 | `diff` reads a file whose name starts with `http` as a URL, `path` does not | `C102_false` |
| C104 | a copy cut by a lost connection is kept as complete: made again, the comparison hides the error | `C104_false` |
| C105 | a target with the marker leaves a copy which ends there; as a baseline it then lacks its other lines | `C105_false` |
| C106 | listings are read from the cache even when it is not asked for, and never renewed | `C106_false` |
| C108 | `is_valid` looks at the whole path: below `/srv/etc/` all the files are ignored, and below a directory whose path ends with `local`, `pacemaker`, `mysql` or `corosync` some are | `C108_false` |
| C110 | the link of a file whose path is not UTF-8 is empty | `C110_false` |
| C111 | the pages of two files whose paths are not UTF-8 have the same title | `C111_false` |
| C117 | two runs write the same listing, and a third one reads an empty listing; a download whose write fails is kept as complete when the disk has room again | `C117_false`, `C117_disk_false` |
| C118 | a run fails because another one is downloading the same file, or created the entry first; a killed run destroys an entry completed by another one | `C118_false` |
| C120 | a directory is walked in the order of the file system: the file under which a repeated line is shown, what is found after a file which can't be opened, and the reading of mixed JSON and text files of a name depend on it | `C120_false`, `C120_open_false`, `C120_json_false` |
| C121 | `debug-iterator` succeeds although the file could not be read to the end | `C121_unread` |
| C122 | a quote in the name of a file ends the attribute of its link, and what follows can be a handler of events | `C122_false` |
| C123 | a quote in the name of a file ends the attribute of its link, and what follows can make the link an element of the debug information, which is hidden | `C123_false` |
| C140 | a baseline which can't be read to its end is used as if it ended there: only the log tells it, and the lines after the failure are reported when the target has them | `C140_false` |
| C143 | when the reading of a file of the target fails, the lines of its last chunk are not reported, and not reported either for the later files of the same name which have them | `C143_false` |

## Testing the theorems

`seeded/LOG.jsonl` has one line per wrong program tried: the definition edited, the edit, the claim it breaks,
the theorems which failed, and those which were added or tightened because nothing failed.
