{"id": "C01", "title": "Line splitting does not depend on how the reader slices the data", "statement": "For a fixed byte content, BytesLines yields the same sequence of (line, number) pairs whatever sizes the successive read() calls return (1 byte at a time, full 8192-byte chunks, or anything between), as long as no unterminated line overflows the 6000 byte limit at a read boundary.", "quantifier": "every byte content, every partition of it into reads of 1..8192 bytes, both JSON modes", "why_tests_cant": "the number of read schedules is exponential in the input size; a test fixes one (Cursor, full reads)", "anchors": ["iterator/src/iterator.rs: BytesLines::next, read_slice, get_slice, find_next_line"]}
{"id": "C02", "title": "Lines are exactly the text between separators", "statement": "The yielded lines are, in order, exactly the non-empty pieces of the content between separators: an unescaped LF, an unescaped literal backslash-n and, in JSON mode outside strings, any of , [ ] { }. Nothing is invented, reordered, merged or lost (pieces over the limit excepted). For backslash-free text in plain mode this is splitting on LF.", "quantifier": "every byte content and read schedule without limit overflow at a boundary", "why_tests_cant": "needs all contents, including escapes and quotes cut by a read boundary", "anchors": ["iterator/src/iterator.rs: find_next_line, match_json_kv, get_slice"]}
{"id": "C03", "title": "Line numbers count real line returns", "statement": "Each yielded piece carries the number 1 + (number of line-return separators before it): sub-lines and JSON pieces of one physical line share its number, and skipped (empty or over-long) lines still count.", "quantifier": "every content, schedule and piece", "why_tests_cant": "numbering depends on the complete history of separators seen so far", "anchors": ["iterator/src/iterator.rs: update_line_counter, get_slice, read_slice"]}
{"id": "C04", "title": "Yielded lines are never empty and never exceed 6000 bytes", "statement": "Every line returned by the iterator has between 1 and 6000 bytes, whatever the reader returns (short reads, binary data, errors in between).", "quantifier": "every sequence of read results, including errors and repeated calls after the end", "why_tests_cant": "the limit must hold for all contents and all placements of read boundaries", "anchors": ["iterator/src/iterator.rs: get_slice, read_slice, drop_until_next_line"]}
{"id": "C05", "title": "An over-long line is discarded without affecting its neighbours", "statement": "When a line exceeds the 6000 byte limit it is dropped and the iterator resumes with the next line: every other line is yielded unchanged with its right number.", "quantifier": "every content with over-long lines and every read schedule", "why_tests_cant": "depends on where the read boundaries fall relative to the long line", "anchors": ["iterator/src/iterator.rs: get_slice (steps I and J), drop_until_next_line"]}
{"id": "C06", "title": "Constant memory use of the line iterator", "statement": "At every point between and inside calls the internal buffer holds at most 6000 + 8192 bytes, whatever the input.", "quantifier": "every sequence of read results, every number of calls", "why_tests_cant": "a memory bound is a statement about all executions", "anchors": ["iterator/src/iterator.rs: buf, read_slice, drop_until_next_line"]}
{"id": "C07", "title": "A read error is surfaced at the right place", "statement": "If the n-th read fails, the iterator first yields exactly the lines terminated in the data received before the failure and then returns that error.", "quantifier": "every content prefix, schedule and failure position", "why_tests_cant": "fault injection at every read position with every content is not testable", "anchors": ["iterator/src/iterator.rs: read_slice, drop_until_next_line"]}
{"id": "C08", "title": "The line iterator terminates, stays finished and never panics", "statement": "On a finite reader the iterator returns None after finitely many calls, keeps returning None afterwards, and no call panics (no slice out of range, no arithmetic underflow).", "quantifier": "every finite sequence of read results and every number of calls, debug and release arithmetic", "why_tests_cant": "absence of panics and termination range over all inputs and schedules", "anchors": ["iterator/src/iterator.rs: next, find_next_line, get_slice, drop_until_next_line"]}
{"id": "C09", "title": "Tokenization is total and ignores surrounding whitespace", "statement": "process terminates on every line, its recursion strictly shrinks the word, and process(l) only depends on the trimmed line (so a trailing CR/LF never changes the tokens); the result itself has no leading or trailing whitespace.", "quantifier": "every Unicode string", "why_tests_cant": "recursive descent over arbitrary strings", "anchors": ["tokenizer/src/tokenizer.rs: process, do_process"]}
{"id": "C10", "title": "No digit of the input survives tokenization", "statement": "The only ASCII digits in the tokenized line are those of the literal token %BASE64.", "quantifier": "every Unicode string", "why_tests_cant": "all lines; the branches of the recursive tokenizer interact", "anchors": ["tokenizer/src/tokenizer.rs: remove_numbers, do_process, parse_literal"]}
{"id": "C11", "title": "Error keywords are always amplified", "statement": "In a line that passes the global filter, every space separated word that is (up to surrounding quotes and punctuation) an error keyword in any letter case contributes the five tokens w, w%A, w%B, w%C, w%D.", "quantifier": "every line, every keyword position and every letter case", "why_tests_cant": "2^n casings and all contexts", "anchors": ["tokenizer/src/tokenizer.rs: is_error, push_error, do_process, process"]}
{"id": "C12", "title": "Lines that differ only in volatile values get equal tokens", "statement": "If two lines have the same number of words and the words at each position are either equal or both recognised as the same volatile class (date, hash, hex/ip/mac id, cookie, uuid, url, tmp path, git ref, base64), then (when neither is globally filtered) their token strings are equal.", "quantifier": "every pair of such lines", "why_tests_cant": "quantifies over pairs of arbitrary lines", "anchors": ["tokenizer/src/tokenizer.rs: parse_literal, do_process, process"]}
{"id": "C13", "title": "Values of secret looking keys do not leak", "statement": "For a word key=value (or key:value) that reaches the key/value rule and whose key contains id, key, ref, region, token, secret or password in any case, the tokens do not depend on the value.", "quantifier": "every key, every pair of values", "why_tests_cant": "non-interference is a two-run property over all values", "anchors": ["tokenizer/src/tokenizer.rs: is_key_value, is_key_for_id, do_process"]}
{"id": "C14", "title": "Tokenized output is bounded", "statement": "The tokenized line is at most 14 times as long as the line (or is %GL_FILTER), and no part of it longer than 32 bytes is free of blanks and of the percent sign that marks the tokens, so no fragment of a word longer than that is ever copied to the output.", "quantifier": "every Unicode string", "why_tests_cant": "growth of a recursive string transformation over all inputs", "anchors": ["tokenizer/src/tokenizer.rs: do_process, push_error, process"]}
{"id": "C15", "title": "Global filter", "statement": "A line whose trimmed text has no whitespace, or that matches one of the listed noise patterns, is tokenized to exactly %GL_FILTER; any other line is tokenized word by word.", "quantifier": "every Unicode string", "why_tests_cant": "regex semantics over all strings", "anchors": ["tokenizer/src/tokenizer.rs: global_filter, process"]}
{"id": "C16", "title": "Tokenization is word-local", "statement": "For a line that is not globally filtered the tokens are the space-joined tokens of its words, each processed independently of its neighbours; the amount and kind of blanks (space, tab, literal \\n or \\r) between words is irrelevant.", "quantifier": "every line, every way to separate its words", "why_tests_cant": "all word sequences and separators", "anchors": ["tokenizer/src/tokenizer.rs: words, process, do_process"]}
{"id": "C17", "title": "Distances are between 0 and 1", "statement": "search, search_mat and search_mat_chunk return one number per target, between 0.0 and 1.0 in exact arithmetic; with f32 rounding, search stays between 0.0 and 1.0, and search_mat_chunk returns at most 1.0 and at least -(12+4N)/2^24 for a target of N words (slightly negative numbers do occur).", "quantifier": "every baseline collection and every target line, every hash function", "why_tests_cant": "Cauchy-Schwarz over all sparse vectors", "anchors": ["index/src/index.rs: search, search_mat, search_mat_chunk, similarity, cosine_distance"]}
{"id": "C18", "title": "A line of the baseline has distance 0", "statement": "If a target line is in the indexed baseline, its distance is 0.0 in exact arithmetic whatever the other baselines are; with f32 rounding search returns exactly 0.0, and search_mat_chunk at most (12+4N)/2^24 for a line of N words, always below 0.07 (the anomaly threshold is 0.3).", "quantifier": "every baseline list and every member", "why_tests_cant": "all baselines", "anchors": ["index/src/index.rs: search, search_mat, search_mat_chunk"]}
{"id": "C19", "title": "The three search implementations agree", "statement": "Row by row search, matrix search and chunked matrix search return the same distances in exact arithmetic: the smallest cosine distance to a baseline line, capped at 1; with f32 rounding, matrix and chunked matrix search return the same numbers, within (12+4N)/2^24 of the exact distance; row by row search is within 6/2^24 of the exact distance.", "quantifier": "every baseline list, partition of it into chunks, and target list", "why_tests_cant": "equivalence of algorithms over all inputs", "anchors": ["index/src/index.rs: index, search, index_mat, search_mat, search_mat_chunk"]}
{"id": "C20", "title": "Chunking, order and repetition of baselines are irrelevant", "statement": "Splitting the baseline in chunks in any way, permuting it or repeating lines does not change any distance.", "quantifier": "every baseline list, permutation and partition", "why_tests_cant": "factorially many arrangements", "anchors": ["index/src/index.rs: search_mat_chunk, cosine_distance_chunk", "model/src/model.rs: hashing_index::HashingIndex::add, HashingIndex::search"]}
{"id": "C21", "title": "More baselines never increase a distance", "statement": "Adding baseline lines can only lower (or keep) the distance of every target, so learning more never creates new anomalies.", "quantifier": "every baseline list, addition and target", "why_tests_cant": "monotonicity over all extensions", "anchors": ["index/src/index.rs: search_mat_chunk"]}
{"id": "C22", "title": "Vectorization is well formed and order-insensitive", "statement": "Each line maps to a non-empty sparse vector with strictly increasing indices below 260000 and values +1/-1 (so building it never panics and no norm is zero); reordering or repeating words does not change the vector unless two different words collide modulo 260000 with opposite signs.", "quantifier": "every line, every hash function", "why_tests_cant": "all lines, all collision patterns", "anchors": ["index/src/index.rs: vectorize, create_mat"]}
{"id": "C23", "title": "Distance 0 means same hashed words, disjoint words mean distance 1", "statement": "A distance is 0 exactly when some baseline line has the same vector as the target; it is 1 when the target shares no hashed word with any baseline, or when there is no baseline.", "quantifier": "every baseline list and target", "why_tests_cant": "equality case of Cauchy-Schwarz for all vectors", "anchors": ["index/src/index.rs: cosine_distance, similarity"]}
{"id": "C24", "title": "Training indexes every distinct tokenized line exactly once", "statement": "After adding any readers and completing, the concatenation of the chunks given to the index is the list of distinct tokenized lines in first-seen order, every chunk but the last has exactly 512 lines, no chunk is empty, and line_count/byte_count are the totals read.", "quantifier": "every sequence of readers and lines, including readers that fail midway", "why_tests_cant": "chunk boundary and dedup interaction over all histories", "anchors": ["model/src/process.rs: ChunkTrainer::add, complete, single"]}
{"id": "C25", "title": "Every anomalous line is reported exactly once, in order", "statement": "The iterator yields one AnomalyContext per line that is the first occurrence of its tokens (not already in the skip set) and whose distance is above 0.3 - no other line, none missing, in file order, with the line's own text, number and distance.", "quantifier": "every source without read error or log-classify marker, every index, every skip set, across all chunk boundaries", "why_tests_cant": "bugs appear at particular alignments of unique lines, duplicates and 512/5120 boundaries", "anchors": ["model/src/process.rs: ChunkProcessor::next, read_anomalies, do_search_anomalies"]}
{"id": "C26", "title": "Contexts are the adjacent raw lines", "statement": "before (at most 3 lines) followed by the anomaly followed by after (at most 3 lines) is a contiguous run of the raw lines of the source, centered on the reported line.", "quantifier": "every source and every reported anomaly", "why_tests_cant": "left-over handling across chunk boundaries", "anchors": ["model/src/process.rs: collect_before, do_search_anomalies, reset"]}
{"id": "C27", "title": "After-context is complete", "statement": "The after context holds the next 3 lines, or fewer only because another anomaly or the end of the source comes first.", "quantifier": "every source and every reported anomaly", "why_tests_cant": "depends on how the end of file aligns with chunk boundaries", "anchors": ["model/src/process.rs: do_search_anomalies, read_anomalies"]}
{"id": "C28", "title": "Contexts of successive anomalies do not overlap", "statement": "No raw line is shown in two contexts: the before context of an anomaly starts after the after context of the previous one.", "quantifier": "every source and every pair of consecutive anomalies", "why_tests_cant": "only violated at specific chunk alignments", "anchors": ["model/src/process.rs: collect_before, do_search_anomalies, reset"]}
{"id": "C29", "title": "Bounded buffering while processing", "statement": "The number of raw lines kept by the processor never exceeds 10*512 + 512, and pending targets never exceed 512, however long or repetitive the source is.", "quantifier": "every source and every point of the execution", "why_tests_cant": "a bound over all executions", "anchors": ["model/src/process.rs: read_anomalies"]}
{"id": "C30", "title": "Processing never panics", "statement": "No slice, unwrap or 'Could not find target_coord' panic can be reached while processing any source.", "quantifier": "every sequence of reader results, every skip set, every index whose search gives each target its own distance (which both indexes do, C20 and C34)", "why_tests_cant": "unreachability over all executions", "anchors": ["model/src/process.rs: do_search_anomalies, collect_before, reset"]}
{"id": "C31", "title": "Processing stops at its own output", "statement": "Once a line containing 'TASK [log-classify' is met, that line and everything after it are never reported as anomalies.", "quantifier": "every source with a marker line", "why_tests_cant": "depends on whether anomalies were pending when the marker was met", "anchors": ["model/src/process.rs: read_anomalies, next"]}
{"id": "C32", "title": "Read errors end a source without corrupting earlier results", "statement": "When reading fails (I/O error or invalid UTF-8) the iterator yields the error; every anomaly yielded before is a correct one, and lines that were already read are not silently forgotten for later sources sharing the skip set.", "quantifier": "every failure position, every source sequence", "why_tests_cant": "fault positions x chunk alignments", "anchors": ["model/src/process.rs: read_anomalies, next", "model/src/model.rs: Model::report"]}
{"id": "C33", "title": "Duplicates are reported once across the sources of a group", "statement": "With a shared skip set, a token string is searched at most once over all sources processed with it; processing two sources in sequence reports the same anomalous lines as processing their concatenation.", "quantifier": "every sequence of sources", "why_tests_cant": "history dependent state shared between runs", "anchors": ["model/src/process.rs: skip_lines", "model/src/model.rs: Model::report"]}
{"id": "C34", "title": "Comparing a content with itself reports nothing", "statement": "Training on a source and inspecting a source whose lines all tokenize to trained tokens yields no anomaly at all.", "quantifier": "every content, both index kinds", "why_tests_cant": "end-to-end statement over all inputs", "anchors": ["model/src/process.rs: ChunkTrainer, ChunkProcessor", "model/src/model.rs: HashingIndex, Model::train, Model::report"]}
{"id": "C35", "title": "Source grouping is a partition", "statement": "group_sources puts every valid source of every content in exactly one group, the group of its index name, keeping the discovery order, and fails when a content fails or is empty.", "quantifier": "every list of contents", "why_tests_cant": "all lists of sources and names", "anchors": ["model/src/model.rs: Content::group_sources, get_sources"]}
{"id": "C36", "title": "Index lookup", "statement": "get_index returns the index of that name if there is one; otherwise the only index when the model has exactly one; otherwise nothing - independently of the hash map order.", "quantifier": "every model and name", "why_tests_cant": "all maps and iteration orders", "anchors": ["model/src/model.rs: lookup_or_single, Model::get_index"]}
{"id": "C37", "title": "Report totals are consistent", "statement": "In every report, total_anomaly_count is the sum of the anomalies of the log reports, no log report is empty, every log report's index has an index report whose sources are that index's, and total_line_count is at least the sum of the log reports' line counts.", "quantifier": "every model, target and set of read failures", "why_tests_cant": "accounting over nested loops with early exits", "anchors": ["model/src/model.rs: Model::report"]}
{"id": "C38", "title": "No target source is silently ignored", "statement": "Every source of the target is analysed, or listed in index_errors (no index), or listed in read_errors.", "quantifier": "every target, every pattern of open/read failures", "why_tests_cant": "combinations of failures and positions", "anchors": ["model/src/model.rs: Model::report"]}
{"id": "C39", "title": "Reports do not depend on hash map iteration order", "statement": "Whatever the drain order of the groups, the report contains the same log reports, errors (as multisets), index reports and totals.", "quantifier": "every iteration order of the groups", "why_tests_cant": "factorially many orders, randomised per process", "anchors": ["model/src/model.rs: Model::report, Model::train, Content::group_sources"]}
{"id": "C40", "title": "Index names ignore digits and rotation suffixes", "statement": "Outside the special qemu/pod/k8s names, two paths whose directory+file name differ only by digits or other dropped characters get the same index name; in particular name and name.<digits> agree.", "quantifier": "every path, every number", "why_tests_cant": "all path strings", "anchors": ["model/src/files.rs: IndexName::from_path"]}
{"id": "C41", "title": "Index names are clean and ignore compression", "statement": "An ordinary index name only contains ASCII letters and / . _ -, and name.gz and name get the same index name.", "quantifier": "every path", "why_tests_cant": "all path strings", "anchors": ["model/src/files.rs: IndexName::from_path"]}
{"id": "C42", "title": "Source filtering", "statement": "A source is skipped exactly when its location contains /etc/ or ends with one of the listed suffixes, with or without .gz.", "quantifier": "every location", "why_tests_cant": "all strings", "anchors": ["model/src/model.rs: Source::is_valid, get_sources"]}
{"id": "C43", "title": "Compressed local files are read decompressed", "statement": "Opening a local path with the gz extension yields the decompressed data.", "quantifier": "every path", "why_tests_cant": "all file names", "anchors": ["model/src/reader.rs: from_path"]}
{"id": "C44", "title": "Opening a remote source does not panic", "statement": "url_open never panics, whatever the URL.", "quantifier": "every URL and prefix", "why_tests_cant": "all URLs", "anchors": ["model/src/urls.rs: Source::url_open"]}
{"id": "C45", "title": "Relative names are defined for every discovered source", "statement": "For every source produced by listing a local or remote directory, get_relative is the location without the directory prefix and does not panic.", "quantifier": "every directory, every file listed in it", "why_tests_cant": "all listings", "anchors": ["model/src/model.rs: Source::get_relative", "model/src/files.rs: dir_iter", "model/src/urls.rs: httpdir_iter", "httpdir/src/httpdir.rs: Crawler"]}
{"id": "C46", "title": "Command line inputs are classified correctly", "statement": "A diff/train argument is treated as a URL exactly when it is an http(s) URL; every other string is treated as a path and no argument makes the program panic.", "quantifier": "every argument string", "why_tests_cant": "all strings", "anchors": ["model/src/model.rs: Input::from_string, Content::from_input"]}
{"id": "C47", "title": "Directory listing is complete and schedule independent", "statement": "When no page fails, list returns (as a multiset) exactly the file links of all the pages reachable from the root through strictly longer directory paths, whatever the interleaving of the worker threads.", "quantifier": "every site and every schedule of the worker pool", "why_tests_cant": "thread interleavings", "anchors": ["httpdir/src/httpdir.rs: Crawler::list, process, Visitor::visit"]}
{"id": "C48", "title": "Directory listing fails if any page fails", "statement": "If fetching or parsing any reached page fails, or a worker panics, list returns an error rather than a partial list, under every schedule.", "quantifier": "every site, failure set and schedule", "why_tests_cant": "thread interleavings and fault positions", "anchors": ["httpdir/src/httpdir.rs: Crawler::list, http_list"]}
{"id": "C49", "title": "The crawler terminates", "statement": "On a site with finitely many directory paths the crawler stops under every schedule, and link cycles or parent links never cause a revisit along a chain: each step strictly increases the path length.", "quantifier": "every site graph with cycles, every schedule", "why_tests_cant": "liveness over cyclic graphs", "anchors": ["httpdir/src/httpdir.rs: Visitor::visit, process"]}
{"id": "C50", "title": "The crawling iterator yields everything that is found", "statement": "walk yields every message sent by the workers before returning None, and nothing else: only files, errors and panics of the visited pages, each panic told at most once; and it returns None once the workers are done, also after a panic.", "quantifier": "every site and every interleaving of workers and consumer", "why_tests_cant": "race between try_recv and the worker counters", "anchors": ["httpdir/src/httpdir.rs: CrawlerIter::next, is_done"]}
{"id": "C51", "title": "The crawler stays below the starting directory", "statement": "Every listed file and visited page is below the starting URL.", "quantifier": "every site", "why_tests_cant": "adversarial link structure", "anchors": ["httpdir/src/httpdir.rs: Visitor::visit, process, path_dir"]}
{"id": "C52", "title": "HEAD results are cached faithfully", "statement": "After a result is recorded for a (base, url) pair, head returns exactly it, until removed; recording for one pair never changes another pair.", "quantifier": "every history of cache operations", "why_tests_cant": "all operation histories", "anchors": ["cache/src/cache.rs: Cache::head, head_set", "model/src/reader.rs: head_url"]}
{"id": "C53", "title": "A completely read remote file is served identically from the cache", "statement": "The caching reader returns exactly the remote bytes, and once read to the end a later cache hit returns those same bytes.", "quantifier": "every content, every read size sequence", "why_tests_cant": "all read schedules", "anchors": ["cache/src/cache.rs: remote_add, CacheReader::read, remote_get", "model/src/reader.rs: from_url"]}
{"id": "C54", "title": "A partially read remote file is never served as complete", "statement": "If the remote read fails, the consumer stops early or the process dies, a later open does not return truncated data as if it were the file.", "quantifier": "every crash or stop point", "why_tests_cant": "crash points", "anchors": ["cache/src/cache.rs: remote_add, CacheReader", "model/src/reader.rs: from_url"]}
{"id": "C55", "title": "Cache namespaces are disjoint", "statement": "Listing, content, HEAD-success and HEAD-failure entries never share a file, for any URLs, and adding an entry that exists is refused instead of overwriting it.", "quantifier": "every pair of URLs and every history", "why_tests_cant": "all pairs of keys", "anchors": ["cache/src/cache.rs: filename::*, Cache::create"]}
{"id": "C56", "title": "Directory listings are cached faithfully and recover from crashes", "statement": "httpdir_get returns exactly the list given to httpdir_add; a crash while adding does not make later listings fail forever.", "quantifier": "every list, every crash point", "why_tests_cant": "crash points", "anchors": ["cache/src/cache.rs: httpdir_add, httpdir_get", "model/src/urls.rs: httpdir_iter"]}
{"id": "C57", "title": "A response that does not decode is not kept", "statement": "After get_build/get_builds fails to decode a response, the URL is no longer cached, so the next attempt fetches it again.", "quantifier": "every cache state and response", "why_tests_cant": "all states", "anchors": ["model/src/zuul.rs: get_build, get_builds", "model/src/reader.rs: from_url, drop_url"]}
{"id": "C58", "title": "The best baseline is selected", "statement": "discover_baselines returns at most one build; it is an eligible build (has log and ref URLs, is not the target itself, its logs are available) and no other eligible build has a strictly higher score; ties go to the earliest in API order.", "quantifier": "every API answer, availability pattern and date", "why_tests_cant": "optimality over all lists", "anchors": ["model/src/zuul.rs: discover_baselines, baseline_score, logs_available"]}
{"id": "C59", "title": "A build is not compared with the same change", "statement": "A build of the same project and change as the target is not selected as its baseline.", "quantifier": "every API answer", "why_tests_cant": "all lists of builds", "anchors": ["model/src/zuul.rs: baseline_score"]}
{"id": "C60", "title": "Baseline discovery and build lookup do not panic", "statement": "No API answer makes discover_baselines or from_zuul_url panic.", "quantifier": "every API answer", "why_tests_cant": "optional fields in all combinations", "anchors": ["model/src/zuul.rs: new_content, baseline_score"]}
{"id": "C61", "title": "Newer baselines are preferred", "statement": "All other things equal, an older build never scores higher, builds in the future count as zero days old, and the score is within fixed bounds for its age.", "quantifier": "every pair of builds and date", "why_tests_cant": "all dates", "anchors": ["model/src/zuul.rs: elapsed_days, baseline_score"]}
{"id": "C62", "title": "Zuul build URLs are recognised", "statement": "A URL .../t/<tenant>/build/<uid> maps to API .../api/tenant/<tenant>/ and .../build/<uid> to .../api/, with that uid; URLs whose last segment is not a 32 character alphanumeric id under build/ are not treated as builds.", "quantifier": "every URL", "why_tests_cant": "all URLs", "anchors": ["model/src/zuul.rs: get_zuul_api_url, api_from_webui, api_from_whitelabel_webui, is_uid"]}
{"id": "C63", "title": "Zuul builds survive a JSON round trip", "statement": "Serializing a build and decoding it again gives the same duration and times (to the second).", "quantifier": "every build", "why_tests_cant": "all u32 durations and all dates", "anchors": ["zuul/src/zuul-build.rs: rounded_float, python_utc_without_trailing_z"]}
{"id": "C64", "title": "One bad build does not hide the others", "statement": "decode_builds returns exactly the elements that decode, in order, and fails only if the answer is not a JSON array.", "quantifier": "every JSON array", "why_tests_cant": "all arrays", "anchors": ["zuul/src/zuul-build.rs: decode_builds"]}
{"id": "C65", "title": "HTML report line numbers are right", "statement": "The HTML report shows each context line with its own line number and never panics, drawing a separator exactly between non-adjacent anomalies.", "quantifier": "every list of anomalies produced from a source", "why_tests_cant": "all anomaly lists, sub-line positions", "anchors": ["report/src/report.rs: render_lines, render_context"]}
{"id": "C66", "title": "Console line numbers are right", "statement": "The live output shows each context line with its own line number.", "quantifier": "every list of anomalies", "why_tests_cant": "all positions", "anchors": ["cli/src/main.rs: process_live"]}
{"id": "C67", "title": "Model selection on the command line", "statement": "An existing model file is loaded (and refused together with explicit baselines); otherwise baselines are given or discovered, a model is trained and, when a path is given, saved; an existing file is never overwritten by process.", "quantifier": "every combination of arguments and file system state", "why_tests_cant": "state space of arguments x files x failures", "anchors": ["cli/src/main.rs: process"]}
{"id": "C68", "title": "Dataset evaluation verdict", "statement": "A dataset passes exactly when the number of anomalies equals the expected count and the i-th anomaly line contains the i-th expected text (trimmed).", "quantifier": "every dataset and anomaly list", "why_tests_cant": "all lists of different lengths", "anchors": ["cli/src/dataset.rs: process, assert_anomaly_includes"]}
{"id": "C69", "title": "Generated lines are well formed", "statement": "Every generated line has 2 to 9 words of 2 to 17 alphanumeric characters separated by single spaces, whatever the random stream.", "quantifier": "every random stream", "why_tests_cant": "all streams; tests fix the seed", "anchors": ["generate/src/generate.rs: gen_line, gen_lines"]}
{"id": "C70", "title": "Saved models and reports load back unchanged", "statement": "Decoding the encoded form of a feature matrix, model or report gives back the same value, and leaves any following bytes untouched.", "quantifier": "every value", "why_tests_cant": "all values", "anchors": ["model/src/model.rs: Model::save, Model::load, Report::save, Report::load", "index/src/index.rs: save_mat, load_mat"]}
{"id": "C71", "title": "Ordinary words are kept and only their numbers are replaced", "statement": "In a line that is not globally filtered, an ordinary word (not a volatile value, not an error keyword, more than 3 and less than 32 bytes, no separator or odd character) contributes itself with each integer or decimal number replaced by N, unless 3 bytes or less remain; changing the numbers of such words never changes the tokens.", "quantifier": "every line and every such word", "why_tests_cant": "all words and all numbers", "anchors": ["tokenizer/src/tokenizer.rs: remove_numbers, do_process, process"]}
{"id": "C72", "title": "Before-context is complete", "statement": "The before context of the first anomaly holds the 3 previous lines, or all the lines from the start of the source; the one of a later anomaly holds 3 lines, or starts at the latest right after the context of the previous anomaly.", "quantifier": "every source and every reported anomaly", "why_tests_cant": "left-over handling across chunk boundaries", "anchors": ["model/src/process.rs: collect_before, reset"]}
{"id": "C73", "title": "Unrelated lines are always reported", "statement": "A line which is new for its source, whose tokens share no hashed word with the tokens of any trained line, is reported, with distance 1.", "quantifier": "every set of baselines, every source, every such line", "why_tests_cant": "end-to-end statement over all inputs", "anchors": ["model/src/process.rs: ChunkTrainer, ChunkProcessor", "model/src/model.rs: ChunkIndex", "index/src/index.rs: search_mat_chunk"]}
{"id": "C74", "title": "A report of a content against itself is empty", "statement": "When a content is one of the baselines a model was trained on, the report of that content by that model has no log report, no index error and no anomaly.", "quantifier": "every content, every other baselines, every order of the hash maps, both kinds of index", "why_tests_cant": "all file contents, groupings and rotations", "anchors": ["model/src/model.rs: Model::train, Model::report, Index::train, Index::get_processor"]}
{"id": "C75", "title": "A model is trained on exactly its baselines", "statement": "Training succeeds exactly when every baseline can be listed, has a valid source, and all its valid sources can be opened; the model then has exactly one index per index name, built from all the valid sources of that name, and the index has seen each token string of their readable lines, once.", "quantifier": "every list of baselines, listing and open failures, and map order", "why_tests_cant": "all combinations of failures, names and contents", "anchors": ["model/src/model.rs: Model::train, Index::train, Content::group_sources"]}
{"id": "C76", "title": "The sources of a local directory are its regular files", "statement": "When a local directory is listed, the sources are exactly its regular files reached without symbolic links, in the order of the walk, and every error met by the walk is reported.", "quantifier": "every outcome of the directory walk, of any length and with errors anywhere", "why_tests_cant": "the walk's outcome depends on the file system; tests use one small tree without errors or links", "anchors": ["model/src/files.rs: Source::dir_iter, keep_path"]}
{"id": "C77", "title": "Discovery gives at least one baseline or an error", "statement": "Discovering the baselines of a content never gives an empty list; for a local file it is the file with .0 appended when it exists, and for remote files and directories it is an error.", "quantifier": "every content and every state of the file system and of the zuul API", "why_tests_cant": "tests check one file only; the claim ranges over every content and environment", "anchors": ["model/src/model.rs: Content::discover_baselines", "model/src/files.rs: discover_baselines_from_path"]}
{"id": "C78", "title": "The links of an index page are found exactly", "statement": "Listing a page finds exactly its links of at least two characters that start with a letter, digit, slash or backslash, in order, and nothing else.", "quantifier": "every page made of any texts and any links", "why_tests_cant": "pages are arbitrary text; tests use one Apache page", "anchors": ["httpdir/src/httpdir.rs: parse_index_of"]}
{"id": "C79", "title": "An error answer of a web server is never read as a log", "statement": "When a server answers a request for a log or a directory with an error status, the error is reported: the error page is not read as log lines, not stored in the cache, and not listed as an empty directory.", "quantifier": "every answer of a server", "why_tests_cant": "tests use one server that answers 200; the outcome must hold for every status and body", "anchors": ["model/src/reader.rs: from_url, get_url", "httpdir/src/httpdir.rs: Client", "cache/src/cache.rs: remote_add"]}
{"id": "C80", "title": "A truncated saved file is refused", "statement": "Loading a strict prefix of the (uncompressed) data of a saved matrix, model, report or directory listing fails; it never gives another value.", "quantifier": "every value and every crash point while it is written", "why_tests_cant": "all values and all truncation points", "anchors": ["model/src/model.rs: Model::load, Report::load", "index/src/index.rs: load_mat", "cache/src/cache.rs: httpdir_get"]}
{"id": "C81", "title": "The live output accounts for every source", "statement": "When a target is inspected without a report file and its sources can be listed, the output accounts for each source: a message that it has no baseline or cannot be opened, or all its anomalies printed together, with a message for the read error that ended it, if any; the totals shown are the sums over the sources.", "quantifier": "every target, model, output mode, and every combination of open and read errors", "why_tests_cant": "tests look at one directory where all the files can be opened", "anchors": ["cli/src/main.rs: process_live"]}
{"id": "C82", "title": "Anomalies have a valid colour and a two digit score", "statement": "In the HTML report of anomalies found by the program, each anomaly has a six digit CSS colour and a two digit score, and a higher distance never has a lower colour or score.", "quantifier": "every index, every source, every rounding of f32", "why_tests_cant": "floats: a distance could round above 1 or below 16/255, where the colour would have another number of digits", "anchors": ["report/src/report.rs: render_lines", "model/src/process.rs: THRESHOLD"]}
{"id": "C83", "title": "The HTML report has every log report", "statement": "The page has exactly one item per log report, in order, with its path, its link, its model, its number of anomalies and its lines; only the first one is expanded; and it gives the target, the baselines and the totals. A release build always makes the page.", "quantifier": "every report", "why_tests_cant": "the number and contents of the log reports are arbitrary", "anchors": ["report/src/report.rs: add_container, render_content_report"]}
{"id": "C84", "title": "The live output has every anomaly of the report", "statement": "When the sources of a target can be opened and read, every anomaly of its report is a line of the live output of the same target and model, with the same score, number and text.", "quantifier": "every target and model, every order of the hash maps, every output mode", "why_tests_cant": "the two commands use different sets of lines already seen; the relation must hold for all contents", "anchors": ["cli/src/main.rs: process_live", "model/src/model.rs: Model::report"]}
{"id": "C85", "title": "A successful save can be loaded", "statement": "When saving a model succeeds, loading the file gives the model back.", "quantifier": "every model, path and state of the disk", "why_tests_cant": "the end of the file is written by the drop of the compressor, which cannot report an error: a disk which is full at exactly that point is rarely tested", "anchors": ["model/src/model.rs: Model::save, Model::load", "cli/src/main.rs: process"]}
{"id": "C86", "title": "A crash while a model is saved never gives another model", "statement": "Whatever part of the model was written when the process died, a later run with the same path either loads the same model or fails with an error; it never runs with a different or partial model.", "quantifier": "every model and every crash point of the save", "why_tests_cant": "all crash points", "anchors": ["model/src/model.rs: Model::save, Model::load", "cli/src/main.rs: process"]}
{"id": "C88", "title": "Comparing two local logs, from the bytes to the report", "statement": "`diff a b` on two UTF-8 text logs (lines not empty, shorter than 6000 bytes and without backslash; file names that are not filtered, no json) trains on a and reports on b without error; the report counts every line of b; the reported lines are, in order, exactly the lines of b whose tokens appear for the first time in b and whose computed distance to the lines of a is above the threshold, each with its line number and text; the computed distance of a line is within 0.07 (and within a few units of 2^-24 per word) of the exact cosine distance. Hence when every line of b has the tokens of a line of a nothing is reported, and a line sharing no hashed word with a is reported with its number unless a previous line of b has the same tokens. For directory trees, the same for each group of files of the same index name.", "quantifier": "every pair of files or list of baseline trees and target tree of text files, every order of the hash maps, every hash function in range, every rounding with the bounds of f32", "why_tests_cant": "ranges over all files and composes reading, decoding, tokenizing, indexing, searching, grouping and reporting", "anchors": ["cli/src/main.rs: process (Diff)", "model/src/process.rs: ChunkProcessor", "iterator/src/iterator.rs: BytesLines", "index/src/index.rs: index_mat, search_mat_chunk", "tokenizer/src/tokenizer.rs: process", "model/src/model.rs: Model::train, Model::report"]}
{"id": "C89", "title": "The status of a command says what was done", "statement": "A command ends with success exactly when its input was understood, a model was chosen, that model was saved when one was trained and a path was given (the file created and all bytes written before the compressor is dropped), and the report was produced, rendered, and written whole (or shown, without a report file). After a success with a report file, that file is the whole page of the report of the target with the chosen model, whatever it contained before, and the raw report, when cached, is what was encoded, up to the bytes the compressor still holds.", "quantifier": "every state of the files, permissions, disk limits, inputs, models and options", "why_tests_cant": "all combinations of failures of each step; a wrong status shows only when a step fails", "anchors": ["cli/src/main.rs: process, process_live", "model/src/model.rs: Report::save", "model/src/model.rs: Model::save"]}
{"id": "C87", "title": "Sessions of the python module", "statement": "In a python program which calls the module in any order: what `search` and `search_mat` return only depends on the lines given to the `index` or `index_mat` call which made the value and on the targets, whatever other calls are made before, between and after; the bytes returned by `save_mat` can be loaded by `load_mat` in the same or another session, with the same distances as the original and the same bytes when saved again; a truncated save is a python exception and makes no value; and a program which gives each function values made by the right function never has undefined behaviour.", "quantifier": "every sequence of calls, every list of lines and targets, every f32 rounding and hash function", "why_tests_cant": "all interleavings of calls over shared opaque values, and the bits of all matrices", "anchors": ["python/src/bindings.rs: index, search, index_mat, search_mat, save_mat, load_mat", "index/src/index.rs: save_mat, load_mat, index, search, index_mat, search_mat"]}
{"id": "C90", "title": "Lines are streamed: what is read later never changes a line already yielded", "statement": "The lines yielded from the data received so far are a prefix of the lines yielded whatever comes next (more data, an over-long line, an error). In particular, however the content is cut in reads, all the lines before the first one of 6000 bytes or more come first, in order, unchanged and with their right numbers.", "quantifier": "every content, read schedule, continuation (data, errors, end) and position of the first over-long line", "why_tests_cant": "every continuation of every prefix cannot be enumerated; a look-ahead bug shows only for particular read boundaries", "anchors": ["iterator/src/iterator.rs: BytesLines::next, get_slice, read_slice, drop_until_next_line"]}
{"id": "C91", "title": "The number of a line is its place in the file", "statement": "A yielded line contains no line return, and its number is one plus the count of line returns before it in the content, so that the number can be used to find it in the file.", "quantifier": "every content and read schedule", "why_tests_cant": "the count depends on all the bytes before the line, in particular on which of them are taken as escapes", "anchors": ["iterator/src/iterator.rs: find_next_line, update_line_counter"]}
{"id": "C92", "title": "The calls nested by the line iterator are bounded", "statement": "One call of next on the line iterator uses a bounded amount of stack: the number of nested function calls does not grow with the content.", "quantifier": "every content, read schedule and number of previous calls", "why_tests_cant": "a test uses small contents; the stack overflows only with a long run of skipped lines, or not at all when the compiler happens to reuse the frames", "anchors": ["iterator/src/iterator.rs: get_slice, read_slice, drop_until_next_line"]}
{"id": "C93", "title": "A saved model gives the same report", "statement": "A model which was trained, saved in a file and loaded by another run gives, for every target, the report it gave when it was trained; the page written with a saved model is the one written by training again on the same baselines. Clocks, map orders and the bytes after the model in the file do not matter.", "quantifier": "every baseline contents, target, clocks, map orders, arithmetic of f32, following bytes, and sequence of a training run and a later run", "why_tests_cant": "a test compares a few models; the claim is over every trained matrix and its exact bit representation", "anchors": ["model/src/model.rs: Model::train, Model::save, Model::load, Model::report", "index/src/index.rs: save_mat, load_mat, create_mat", "cli/src/main.rs: process"]}
{"id": "C94", "title": "The page of a saved report is the page of the report", "statement": "With LOGREDUCE_CACHE, a run which writes a page also keeps the raw report, in the same directory and under the same name with the extension json. Reading it back gives the report of the page, and the render program makes from it the same page again, under the name with the extension html (so a page named x.html is left as it is).", "quantifier": "every report (lines, distances of f32 arithmetic, sources, clocks), path of the page, and state of the files", "why_tests_cant": "tests render a few reports to a few names; the claim needs all bit patterns of distances, all counts and all shapes of paths", "anchors": ["report/src/render.rs: render, main", "cli/src/main.rs: process (raw report)", "report/src/report.rs: render", "model/src/model.rs: Report::save, Report::load"]}
{"id": "C95", "title": "A value shown in an attribute stays in it", "statement": "In the HTML page, the text given for each attribute of each element is one attribute: a name and a quoted value which the value does not end, so that no file name or model name can add attributes to the page.", "quantifier": "every report: names, paths and URLs of reported files and baselines", "why_tests_cant": "the attributes of a page depend on names which tests do not try; a quote in one of them is enough", "anchors": ["report/src/report.rs: render, render_content_report, add_head, add_nav"]}
{"id": "C96", "title": "Links inside the page lead somewhere", "statement": "Every link of the page to a place of the page (other than its top) has an element with this id.", "quantifier": "every report", "why_tests_cant": "needs all the elements of all pages", "anchors": ["report/src/report.rs: render_content_report, model_anchor, add_container"]}
{"id": "C97", "title": "Commands end with a result", "statement": "Every command ends with success or an error message, never with a panic, when nothing it uses panics.", "quantifier": "every command, argument, file system, and content of the sources and targets", "why_tests_cant": "needs every command with every failure", "anchors": ["cli/src/main.rs: Cli::run, process, process_live", "model/src/model.rs: Model::train, report"]}
{"id": "C98", "title": "A comparison has something to compare with", "statement": "When a comparison succeeds without a model file, the model which was used has an index for each source of each baseline, and there is at least one.", "quantifier": "every comparing command, with any arguments, file system and sources", "why_tests_cant": "needs all combinations of arguments and listings", "anchors": ["cli/src/main.rs: Cli::run, process", "model/src/model.rs: Model::train, discover_baselines"]}
{"id": "C99", "title": "The groups of a target are listed once, in order", "statement": "debug-groups prints one line per index name, sorted, with all the sources of this name, each source once, whatever the order of the hash map.", "quantifier": "every target, listing, and order of the hash map", "why_tests_cant": "the order of a hash map changes at each run", "anchors": ["cli/src/main.rs: debug_groups", "model/src/model.rs: group_sources"]}
{"id": "C100", "title": "debug-iterator prints the lines of a file", "statement": "debug-iterator prints each non-empty line of a local file, in order, with its line number; a line which is not UTF-8 is replaced with an error and the others are printed. For a directory, it is the first file of the listing. With lines of 6000 bytes or more, it prints what the iterator gives (C125); when the file can't be opened, it fails and prints nothing.", "quantifier": "every local file or directory, with any content, read in any blocks", "why_tests_cant": "every content and every way to read it", "anchors": ["cli/src/main.rs: Cli::run DebugIterator", "iterator/src/iterator.rs: BytesLines"]}
{"id": "C101", "title": "diff shows the new lines of a log", "statement": "diff of two local text logs succeeds, prints nothing but the lines of the target which are far from the baseline and not repeated, in order, with their number, score and three lines of context, and leaves the files; with --report it prints one line which announces the report (after the progress, on a terminal), writes a page with the same lines and changes no other file.", "quantifier": "every two text logs, every machine arithmetic of f32, every way the files are read", "why_tests_cant": "every content of the two files, composed over the whole program", "anchors": ["cli/src/main.rs: Cli::run, process, process_live", "model/src/model.rs: Model::train, report", "model/src/process.rs: ChunkProcessor", "report/src/report.rs: render"]}
{"id": "C102", "title": "path compares a file with its .0 file", "statement": "Without a model, path FILE does what diff FILE.0 FILE does: same output, same result, same files.", "quantifier": "every local file, file system, and option", "why_tests_cant": "every name of file and every content", "anchors": ["cli/src/main.rs: Cli::run", "model/src/model.rs: discover_baselines, Input::from_string", "model/src/files.rs: discover_baselines"]}
{"id": "C103", "title": "The terminal changes only the progress texts", "statement": "Whether the output is a terminal and whatever the level of the logger, a command gives the same result, uses the same model and writes the same files; what it prints to a terminal is what it prints to a file, with texts which only move the cursor in between. A bad level is an error before anything is done.", "quantifier": "every command, argument, file system, content, output and level", "why_tests_cant": "needs every command in every mode", "anchors": ["cli/src/main.rs: main, process_live", "model/src/model.rs: OutputMode, debug_or_progress"]}
{"id": "C104", "title": "A comparison can be made again from the cache", "statement": "With LOGREDUCE_CACHE set, once a comparison of remote logs gave a report in which every log could be opened, making it again gives the same report without any request, whatever was compared in between and whatever the servers answer by then.", "quantifier": "every baselines and target (files, directories, zuul builds), network, cache state, later runs, and order of the hash maps", "why_tests_cant": "ranges over every history of runs and every way the network delivers data, with consumers which stop reading early", "anchors": ["model/src/reader.rs: from_url, USE_CACHE", "model/src/urls.rs: httpdir_iter, url_open", "cache/src/cache.rs: Cache", "model/src/model.rs: Model::train, Model::report"]}
{"id": "C105", "title": "The cache is transparent", "statement": "On servers whose content does not change, a comparison with LOGREDUCE_CACHE set gives what it gives without it and with an empty cache, whatever was run before, with the variable set or not.", "quantifier": "every site, baselines, target, history of runs, way the network delivers data and orders of the hash maps", "why_tests_cant": "ranges over every history of the cache; a partial copy left by one run is seen by a later one", "anchors": ["model/src/reader.rs: from_url, USE_CACHE", "model/src/urls.rs: httpdir_iter, url_open", "cache/src/cache.rs: Cache", "model/src/model.rs: Model::train, Model::report"]}
{"id": "C106", "title": "Without LOGREDUCE_CACHE the cache is not used", "statement": "When LOGREDUCE_CACHE is not set, a comparison gives the same from any state of the cache, and does not change it.", "quantifier": "every baselines and target, network, cache state, and order of the hash maps", "why_tests_cant": "needs every cache state", "anchors": ["model/src/reader.rs: from_url, USE_CACHE", "model/src/urls.rs: httpdir_iter, url_open", "cache/src/cache.rs: Cache", "model/src/model.rs: Model::train, Model::report"]}
{"id": "C107", "title": "The tokens of a word follow the rules", "statement": "Every word has exactly one reading by the rules of the tokenizer, applied in order: volatile values, keywords, short words, process ids, odd words, secrets, assignments, paths, dashes, bars, long words, pairs of words, numbers. The tokens of a line which is not noise are the readings of its words in order, separated by spaces.", "quantifier": "every line, every word, every class of word characters", "why_tests_cant": "the rules recurse on the parts of the word, to any depth", "anchors": ["tokenizer/src/tokenizer.rs: process, do_process, is_key_value, is_two_words, has_many_dash, trim_pid"]}
{"id": "C108", "title": "A report does not depend on where the directories are", "statement": "When the directories of the baselines and of the target are copied elsewhere, with the same files under the same names, the comparison gives the same report: the same anomalies, contexts, model names, counts and errors, with the paths of the moved files.", "quantifier": "every set of directories and their new places, every tree of files and content of the files", "why_tests_cant": "needs all trees and places, and every order of the maps", "anchors": ["model/src/files.rs: dir_iter, IndexName::from_path", "model/src/model.rs: Source::is_valid, Source::get_relative, Model::train, Model::report"]}
{"id": "C109", "title": "Exactly the builds of zuul are read", "statement": "A JSON document is read as a build exactly when it has the fields of a build, of the right kinds, in an object, where none is repeated and the optional ones may be missing or null, or in an array, in order. In a list of builds the last of the repeated fields counts. A text is read as a time exactly when it is written YEAR-MONTH-DAYTHOUR:MINUTE:SECOND, perhaps with white space before the numbers, and there is such a time.", "quantifier": "every JSON document, every text", "why_tests_cant": "needs all documents and texts; a wrong kind in one field is enough", "anchors": ["zuul/src/zuul-build.rs: Build, Artifact, decode_build, python_utc_without_trailing_z, rounded_float"]}
{"id": "C110", "title": "A page links to the logs", "statement": "The page of a report has, for each reported file, a link to its path or URL, and for each of the first three baselines of its model a link to its path or URL.", "quantifier": "every report: any sources, models and baselines", "why_tests_cant": "needs all reports; the link depends on the source", "anchors": ["report/src/report.rs: render_content_report, render", "model/src/model.rs: Source::as_str"]}
{"id": "C111", "title": "The page of a report says what was compared", "statement": "The title of the page tells the target: pages for other files, directories or builds have other titles. The table of the page shows the target, the baselines and the totals.", "quantifier": "every report: any target, baselines and counts", "why_tests_cant": "needs every pair of targets", "anchors": ["report/src/report.rs: render, add_container", "model/src/model.rs: Display of Content and Source", "model/src/zuul.rs: Display of Build"]}
{"id": "C112", "title": "A build is compared with the best baseline which can be read", "statement": "Given the URL of a build, what is reported is the comparison of the logs of the build which the API of zuul describes with the logs of one of the successful builds of the same job: the first of those with the best score among those whose logs the servers have and which are comparable. There is a report only in this way.", "quantifier": "every URL of a build, every answer of the API and of the servers of logs, any day, any state of the cache (not used)", "why_tests_cant": "needs every combination of API answers and availability of logs; the logs are checked one after the other, only as far as needed", "anchors": ["model/src/urls.rs: Content::from_url", "model/src/zuul.rs: from_zuul_url, get_build, get_success_samples, Build::discover_baselines, logs_available", "cli/src/main.rs: process", "model/src/reader.rs: head_url"]}
{"id": "C113", "title": "The cache is transparent for the comparison of builds", "statement": "On servers whose content does not change, comparing a build from its URL gives the same result with the cache set as without it and with nothing cached, whatever was compared before: other builds, files or directories, with the cache set or not.", "quantifier": "every history of runs, every build URL, any network timing of the same content", "why_tests_cant": "needs all histories; the API answers, the availability of logs, the listings and the logs are all cached under different names", "anchors": ["model/src/zuul.rs: get_build, get_builds, logs_available", "model/src/reader.rs: head_url, get_url", "cache/src/cache.rs: Cache"]}
{"id": "C114", "title": "The comparison of a build is made again from the cache", "statement": "With the cache, when the command `url` has compared a build (every HEAD was answered, no body was cut, every file was opened), the same command, made after any other runs of the program which reached their comparison (with the cache or not, on any network, even without one), gives the same report, sends no request and leaves the cache as it is; on the same day, and on any later day if the builds of the cached lists had ended on the first day.", "quantifier": "every build URL, every content of the API documents, listings and files, every state of the cache a history can leave, every later sequence of runs and networks, every order of the hash maps, every later day", "why_tests_cant": "A test makes two runs in a row; the claim is about every history between them, and every day.", "anchors": ["model/src/zuul.rs: Build::discover_baselines, get_build, get_builds, from_zuul_url", "model/src/reader.rs: from_url, head_url", "cache/src/cache.rs: Cache", "cli/src/main.rs: process"]}
{"id": "C115", "title": "path, url and a trained model agree with diff", "statement": "`path x` and `url x`, without a model file, print the same texts, give the same status and write the same files as `diff b1 b2 .. x` when b1 b2 .. are the baselines which are discovered for x. After `train b1 b2 ..` saved a model (with room on the disk, and a report which does not overwrite it), `path x` and `url x` with that model return and write what `diff b1 b2 .. x` does without it, and keep the file of the model; `diff` prints what `train` prints (progress on a terminal) and then what they print. The messages of the logger are left out.", "quantifier": "every target, every baselines, every file system, every report file, every value of LOGREDUCE_LOG and LOGREDUCE_CACHE, with a terminal or not", "why_tests_cant": "Each test runs one command; that two commands agree on all their outputs for all arguments is a relation between all runs.", "anchors": ["cli/src/main.rs: Cli::run, process", "model/src/model.rs: Input::from_string, Content::from_input, Content::discover_baselines, Model::load, Model::save"]}
{"id": "C116", "title": "A failure on a URL tells its cause", "statement": "When the command `url` fails before the comparison, it says that the content can't be found exactly when the URL has no host, looks like the one of a build of an API whose URL can't be made, or is the one of a build which the API does not describe; it says that there is no baseline exactly when the URL is not the one of a build, or when no successful build of its job is comparable and has its logs; it panics exactly when the text is not a URL, when the build or the chosen baseline has no logs, no link or no change, or when the comparison panics; the other errors are those of the comparison.", "quantifier": "every text given, every answer of the API and of the servers of logs, any day, any state of the cache (not used)", "why_tests_cant": "every failure has to be told apart for every combination of answers", "anchors": ["model/src/urls.rs: Content::from_url", "model/src/zuul.rs: from_zuul_url, get_zuul_api_url, new_content, Build::discover_baselines", "model/src/model.rs: Content::discover_baselines", "cli/src/main.rs: process"]}
{"id": "C117", "title": "Runs at the same time never get wrong data from a shared cache", "statement": "When several runs use the same cache directory at the same time, whatever their interleaving, and even if some are killed or the disk fails, what each of them gets for a URL - a content read to its end, a listing, or the existence of a page - is what the server has, or an error.", "quantifier": "any number of processes, any interleaving of their system calls, any sizes of the reads and writes, any kill point, any failures of the disk, entries removed meanwhile, any content of the servers", "why_tests_cant": "a test runs one process; the faulty interleavings need another process between two given system calls", "anchors": ["cache/src/cache.rs: Cache::get, Cache::create, remote_get, remote_add, httpdir_get, httpdir_add, head, head_set, CacheReader", "model/src/reader.rs: from_url, head_url", "model/src/urls.rs: httpdir_iter"]}
{"id": "C118", "title": "Runs at the same time do not harm each other through the cache", "statement": "When several runs use the same cache directory at the same time and the servers answer, every run gets what it asked for, and afterwards the cache has what they got, complete.", "quantifier": "any number of processes, any interleaving of their system calls, any sizes of the reads and writes, any content of the servers", "why_tests_cant": "a test runs one process; damage shows only in a later run, after a given interleaving", "anchors": ["cache/src/cache.rs: Cache::get, Cache::create, remote_get, remote_add, httpdir_get, httpdir_add, CacheReader", "model/src/reader.rs: from_url", "model/src/urls.rs: httpdir_iter"]}
{"id": "C119", "title": "A saved model gives the same live output", "statement": "A model which was trained, saved in a file and loaded by another run prints, for every target and in every mode of the terminal, what it would have printed when it was trained: the same lines, contexts, messages and totals.", "quantifier": "every baseline contents, target, clocks, map orders, arithmetic of f32, output mode, and bytes after the model in the file", "why_tests_cant": "the loaded model has matrices where the trained one has lines; that they give the same distances has to hold for every text", "anchors": ["model/src/model.rs: Model::save, Model::load, Model::train, Index::inspect, ChunkIndex::search", "cli/src/main.rs: process_live", "index/src/index.rs: search_mat_chunk, vectorize"]}
{"id": "C120", "title": "The order in which files are listed does not change what is found", "statement": "When the file system lists the files of the baselines and of the target in another order, the report finds the same lines: for each index name the same normalised lines, with the same distances and as many of them, among as many lines. Listing the baselines in another order changes nothing in the report but the order of the sources of an index.", "quantifier": "every baseline, target, and every permutation of their listings", "why_tests_cant": "the order of a directory is chosen by the file system; tests run on one", "anchors": ["model/src/files.rs: Source::dir_iter", "model/src/model.rs: group_sources, Index::train, Model::report", "model/src/process.rs: ChunkTrainer::add, ChunkProcessor"]}
{"id": "C121", "title": "The commands which compare nothing tell their failures", "statement": "`test` succeeds exactly when every dataset passes; `debug-groups` exactly when its target can be found and listed and has a source; `debug-iterator` exactly when moreover its first source can be opened. The two debug commands print nothing when they fail, and none of these commands writes a file.", "quantifier": "every target, listing, dataset and state of the files", "why_tests_cant": "all the combinations of failures", "anchors": ["cli/src/main.rs: Cli::run, debug_groups", "cli/src/dataset.rs: test_datasets, process"]}
{"id": "C122", "title": "What a report page loads and runs does not depend on the report", "statement": "The HTML page of any report loads and runs the same things, in the same order: style sheets and scripts of three known hosts, each with the digest which a browser checks, and a style, a script and an image which are in the page itself; nothing in the logs, in the names of files or in the names of models adds an element which loads or runs something, or a handler of events.", "quantifier": "every report: any target, baselines, log lines, names, counts and errors", "why_tests_cant": "tests render one report; a name or a log line chosen by somebody else, for instance in the artifacts of a build, can be any text", "anchors": ["report/src/report.rs: render, add_head, add_body, add_container, SCRIPTS, STYLES, JS, LOGO"]}
{"id": "C123", "title": "The report page shows each file as open or as closed after any clicks", "statement": "After any sequence of clicks anywhere in the page, each reported file is shown either as open or as closed, in all its parts (arrow, style, lines): the first file is open at first, a click on the header of a file but not on a link in it changes it, a click on its close icon closes it, and no other click has an effect on it; the debug information (the table of the target and totals, the names of the models, the samples of the baselines, and nothing else of the files) is shown everywhere after an odd number of clicks on its button, and hidden everywhere otherwise; no click changes the texts and the links.", "quantifier": "every report and every sequence of clicks, at any places of the page", "why_tests_cant": "tests of the page, if any, try a few clicks; what is shown depends on the whole history of clicks, and on the state in which the page is written", "anchors": ["report/src/report.rs: JS, render_content_report, add_nav, table", "report/src/style.css"]}
{"id": "C124", "title": "The command line is read as it is written", "statement": "The program runs a command with some arguments exactly when its command line is written for them: the options --report and --model come before the command, in any order, each at most once, with their value as the next word or after an equal sign; a command on one thing has one word, train and test have at least one, diff takes its last word as the target and all the words before it, in order, as the baselines, journald takes an optional start and a range; a word which starts with a dash is a value only after --. With any other command line nothing is compared, no file is changed, and the status is 2, or 0 when information is asked for with -h, --help, -V or --version. The status of a command is 0 if and only if it succeeded, 101 if it panicked and 1 otherwise.", "quantifier": "every list of words given to the program, every set of files, every environment", "why_tests_cant": "the command lines are unbounded; which words are options, values, baselines or the target depends on the words around them", "anchors": ["cli/src/main.rs: Cli, Commands, main"]}
{"id": "C125", "title": "Over-long lines damage the rest of a log in exactly one way", "statement": "For every way the data is cut into reads, the lines yielded are those of a content which is explained without the iterator: the data itself, except that a read made while the current line is over 6000 bytes is cut after the first separator when it is a full 8192 byte read, and filled up with zeros to 8192 bytes when it is not. So nothing before the over-long line is lost, and once a line ends where the seen content ends all the following lines are yielded unchanged. A debug build panics exactly when such a line ends with a literal \\\\n cut by two reads.", "quantifier": "every content, every schedule of reads of 1 to 8192 bytes, with or without a read error at the end", "why_tests_cant": "the damage depends on where the reads cut the content: all schedules", "anchors": ["iterator/src/iterator.rs: BytesLines::drop_until_next_line", "iterator/src/iterator.rs: BytesLines::get_slice", "iterator/src/iterator.rs: BytesLines::read_slice"]}
{"id": "C126", "title": "Exactly which lines are reported, whatever the reader returns", "statement": "For every sequence of results of a reader - lines, undecodable lines, job-analysis marker lines, read errors - the anomalies reported, the way the report ends, the tokens known for the next source and the totals of lines and bytes are those of a description which knows nothing of buffers and contexts: a line is an anomaly when its tokens are new and their distance is over the threshold; anomalies are handed out at the end of a chunk (the 512th new line, or a repeated line after 5120 lines), except the last one when it has fewer than three lines after it; a marker line ends the report when nothing is waiting, else everything waiting is handed out and the report goes on; a failure drops what is waiting.", "quantifier": "every sequence of reader results, every tokenizer, decoder, threshold, set of known tokens, and every index whose distance for a line does not depend on the other lines", "why_tests_cant": "what is reported depends on the whole history of lines, chunk boundaries, markers and the place of a failure", "anchors": ["model/src/process.rs: ChunkProcessor::next", "model/src/process.rs: ChunkProcessor::read_anomalies", "model/src/process.rs: ChunkProcessor::do_search_anomalies"]}
{"id": "C127", "title": "Exactly what a comparison reports, whatever the bytes and the reads", "statement": "Comparing a target with a model reports, for each group of sources of the same kind, in the order of the listing: the anomalies with the lines around them, the number of lines and bytes read, and the error which stopped the reading, if any, exactly as C128 describes them for the results of reading this source with the index used for this kind, knowing the tokens met in the previous sources of the group. A source which can't be opened ends its group with an error; a group without index is listed as such; the total of lines is the one over all the groups. For two files this holds whatever their bytes are (not UTF-8, no newline, over-long lines, escaped newlines in JSON) and however the reads cut them, with the lines which C125 describes and the distances to the tokens learned from the first file.", "quantifier": "for every model, listing, opening and reading result; for two files, every content and every sequence of reads", "why_tests_cant": "files with invalid bytes, over-long lines and arbitrary read boundaries form an infinite space; a test compares a handful of files read in one way", "anchors": ["model/src/model.rs: Model::report", "model/src/process.rs: ChunkProcessor::next", "iterator/src/iterator.rs: BytesLines::next"]}
{"id": "C128", "title": "Exactly which lines are shown around each anomaly, whatever the reader returns", "statement": "For every sequence of results of a reader - lines, undecodable lines, job-analysis marker lines, read errors - the anomalies are reported with exactly these lines around them: after an anomaly, the next lines up to three, or up to the next anomaly, the end of the report or a marker; before it, the last three lines which were not shown since the previous anomaly. At the end of a chunk (the 512th new line, or a repeated line after 5120 lines) the repeated lines after the last new line are shown after the previous anomaly and stay available before the next one; the lines of a last chunk without a new line are not shown.", "quantifier": "every sequence of reader results, every tokenizer, decoder, threshold, set of known tokens, and every index whose distance for a line does not depend on the other lines", "why_tests_cant": "which lines are shown depends on how the anomalies, the repeated lines, the chunk boundaries, the markers and the end of the source interleave", "anchors": ["model/src/process.rs: ChunkProcessor::next", "model/src/process.rs: ChunkProcessor::do_search_anomalies", "model/src/process.rs: collect_before", "model/src/process.rs: ChunkProcessor::reset"]}
{"id": "C129", "title": "A report is announced before it is written", "statement": "A comparison with --report which succeeds ends its output with the line which names the report file, and the file has the page of the report. The line is printed only when the report was made: an error in the inputs, the baselines, the training, the model file or the target is not announced as a report. A report file which changes was announced, even when its writing fails. `train` without a file for the model trains nothing, writes nothing and prints nothing but its error.", "quantifier": "every comparing command, with any arguments, file system, terminal, LOGREDUCE_LOG and LOGREDUCE_CACHE", "why_tests_cant": "which steps fail, and when the files change, depends on all the inputs and on the file system", "anchors": ["cli/src/main.rs: process", "model/src/model.rs: Model::report, Model::train, debug_or_progress"]}
{"id": "C130", "title": "Exactly what `diff` prints, and what the rows of its report are", "statement": "Comparing files and directories, whatever their bytes are, prints exactly, apart from the messages of the logger: for each kind of baseline file, once, on a terminal only, its name and the files it is learned from; then for each file of the target in the order of the listing, on a terminal only, that it is inspected; its anomalies with the lines before and after, each line on its own with its score and number, blank lines between anomalies which do not follow each other; the error which stopped its reading; that it could not be opened; or, without baselines of its kind, this; and at the end the totals of lines and anomalies. With --report the same messages of training, those of the files visited, and the announcement are printed, and the file has the page with the target, the baselines, the totals and one item for each file with anomalies, whose rows are one for each line of its anomalies and contexts, in order, with its number and colour.", "quantifier": "every list of baselines and target which are local files or directories that can be listed (the baselines also opened), every content, sequence of reads, tokenizer, hash, output mode and file system; the report for files of less than 2^64 lines", "why_tests_cant": "the texts depend on the whole content of the files, on where they fail, on the mode and on the contexts of the anomalies", "anchors": ["cli/src/main.rs: process, process_live", "model/src/model.rs: Model::train, Model::report, debug_or_progress", "report/src/report.rs: render, render_lines, render_context"]}
{"id": "C131", "title": "More baselines never report more lines", "statement": "Comparing a target against more baselines reports no line which is not reported against fewer: the reported lines of each file are among those reported before, in the same order, and the files which can't be read are the same.", "quantifier": "every list of baselines, every list of further baselines, every target, listing, content, result of the readers, and order of the hash maps", "why_tests_cant": "it compares two runs over arbitrary files: a line which is no longer an anomaly moves the ends of contexts and chunks, and changes which lines the next ones are compared with", "anchors": ["model/src/model.rs: Model::train, Model::report, Index::train, lookup_or_single", "model/src/process.rs: ChunkProcessor", "index/src/index.rs: search_mat"]}
{"id": "C132", "title": "Files of other kinds have no effect on what is reported of a kind", "statement": "What is reported of the files of one kind (index name) depends only on the files of this kind: when the baselines hold at least one file of the kind, adding, removing, changing or making unreadable the files of other kinds, in the baselines or in the target, changes neither the reported files of this kind, nor their anomalies, contexts and counts, nor the read errors of this kind.", "quantifier": "every pair of comparisons whose files of one kind are the same; every listing, content, result of the readers, order of the hash maps", "why_tests_cant": "it compares two runs over arbitrary other files; the shared state (memory of seen lines, hash maps of groups and indexes, shared lists of errors and reports) could leak between kinds on some inputs only", "anchors": ["model/src/model.rs: Model::train, Model::report, Content::group_sources, Index::train, Model::get_index", "model/src/process.rs: ChunkProcessor"]}
{"id": "C133", "title": "A log which grows keeps its anomalies", "statement": "When lines are added at the end of a log, every anomaly reported for it before is still reported, in front of the new ones: with the same line, number and distance, the same lines before it, and the same lines after it, possibly followed by more.", "quantifier": "every log, every added content, every model and listing, every result of the readers", "why_tests_cant": "the anomalies are found in chunks, with contexts cut at the chunks and held back, so that what is added can change the chunks, the end of the last context and whether a chunk is reported at all", "anchors": ["model/src/process.rs: ChunkProcessor", "iterator/src/iterator.rs: BytesLines", "model/src/model.rs: Model::report"]}
{"id": "C134", "title": "Only the normalised lines of the baselines matter", "statement": "Baselines which have the same normalised lines for a kind of file give the same report of this kind for every target: it does not matter in which files, how often and in which order the lines are, nor what their dates, numbers and identifiers are. In particular giving a baseline twice, or the baselines in another order, changes nothing.", "quantifier": "every two lists of baselines, every target, listing, content, result of the readers, and order of the hash maps", "why_tests_cant": "it compares two trainings over arbitrary files; chunks, the memory of seen lines and the hash maps differ between them", "anchors": ["model/src/model.rs: Model::train, Index::train, Model::report", "model/src/process.rs: ChunkTrainer", "index/src/index.rs: index_mat, search_mat_chunk"]}
{"id": "C135", "title": "Only the normalised lines of the target decide what is reported of it", "statement": "Take a target and another one which has, one by one, files of the same names whose lines have the same numbers and the same normalised texts (so that they differ at most in dates, identifiers, numbers and the other values which the normalisation removes; the lines which are no text, the marker lines and the errors are at the same places). Compared with the same model, the two reports have for each name the same files at the same places, with the same number of anomalies, at the same positions and with the same distances, the same number of context lines with the same normalised texts, the same numbers of lines and the same errors; the same total of lines; and the same names without a baseline.", "quantifier": "every model, every pair of targets with any number of files, every content and cut of the reads, every order of the groups", "why_tests_cant": "a test compares two given logs; the claim is about every replacement of the removed values in every line of every file, and its effects on chunks, contexts and the lines already seen", "anchors": ["model/src/process.rs: ChunkProcessor", "model/src/model.rs: Model::report, Index::get_processor", "tokenizer/src/tokenizer.rs: process"]}
{"id": "C136", "title": "How the lines of a kind of log are spread over files does not change what is found", "statement": "Compare two targets with the same model, when all their files can be opened and read as text without the marker of the tool. If the files of a name have lines with the same tokens in both targets - whatever the number, the order and the names of these files, how often a line is repeated, and whatever files of other names the targets have - then the report finds the same normalised lines for this name, with the same distances. If the lines come in the same order, as when a log is rotated or cut into files listed in its order, or when files are joined, they are found in the same order. If the second target has more lines, what was found in the first one is still found, and anything else that is found comes from a line which is not in the first one. Cutting a plain log after any line return which is not after a backslash is such a case.", "quantifier": "all models, all pairs of targets and states of the file system, all names, all contents of files, all ways of cutting a log", "why_tests_cant": "A test rotates one log at one place; the claim is about all distributions of lines over files, with the state shared by the files of a name (the lines already seen), which has no effect on another arrangement only if it is used in the same way for each of them.", "anchors": ["model/src/model.rs: Model::report, Index::get_processor", "model/src/process.rs: ChunkProcessor", "iterator/src/iterator.rs: BytesLines"]}
{"id": "C137", "title": "The debug commands tell what a comparison uses", "statement": "debug-tokenizer: when it prints for each line of a log what it prints for some line of another log, diff of the two prints nothing; in a report of files or directories, whatever they contain, it prints pairwise different texts for the lines which are reported for one name, and none of these texts is printed for a line which was learned for this name. debug-indexname: the name which a report gives to a file with anomalies is the one printed for the path of this file in the target. debug-groups: it shows the file in the line of this name, with exactly the files of the target for which debug-indexname prints this name. debug-iterator: it prints each of the anomalies of the first file of the target, with its number.", "quantifier": "all files, directories, contents, baselines, orders of the hash maps and reports", "why_tests_cant": "Each command has its own entry point in the command line, so a test of one command says nothing of the other one; the claim relates their outputs for all inputs.", "anchors": ["cli/src/main.rs: Commands, debug_groups", "model/src/model.rs: Model::report, Content::group_sources, IndexName", "tokenizer/src/tokenizer.rs: process", "model/src/process.rs: ChunkProcessor"]}
{"id": "C138", "title": "How many words of a line have to be new for it to be reported", "statement": "Count the different words of a normalised line. A line which shares with some learned line at least 72.2% of the geometric mean of their numbers of words is not reported (one word changed out of four, or three out of eleven, is not enough); a line which shares at most 67.8% with each learned line is reported (one word changed out of three is enough), once per normalised text. Between the two bounds the rounding errors and the number of words decide. This holds when the words which are compared have different columns in the index (their hashes differ modulo 260000). It is what diff of two logs prints, and what a report of files and directories contains.", "quantifier": "all files, directories, lines, baselines, hash functions and arithmetics with the rounding errors of f32", "why_tests_cant": "The cosine is computed from hashes, with rounding, over vectors of 260000 columns; a test shows the decision for one pair of lines, not the proportion of words which decides for all.", "anchors": ["model/src/process.rs: THRESHOLD, ChunkProcessor", "index/src/index.rs: index_mat, search_mat_chunk, cosine_distance", "model/src/model.rs: Model::report"]}
{"id": "C139", "title": "A saved model has nothing of what the normalisation removes, but a count of bytes", "statement": "Replace the lines of the baselines one by one with lines of the same normalised text, e.g. with other passwords (C13), dates or numbers. The training fails in the same way or makes a model with the same dates, baselines, names, sources, index contents and line counts: only the counts of bytes can differ. When each new line has as many bytes as the one it replaces, the saved file is the same, byte for byte. So a model can be shared without the values of the secret-looking keys of the logs it was made from.", "quantifier": "all baselines, contents of their files, readers, orders of the hash maps and clocks; files and directories of any bytes for a release build", "why_tests_cant": "A test can search one saved file for one secret. That no file ever depends on a removed value is a statement about pairs of executions, for all logs.", "anchors": ["model/src/model.rs: Index::train, Model::train, Model::save", "model/src/process.rs: IndexTrainer", "index/src/index.rs: index_mat", "tokenizer/src/tokenizer.rs: process"]}
{"id": "C140", "title": "A failure while a baseline is read is told", "statement": "When the reading of a baseline fails (a read error, a truncated cache entry, a line which is not UTF-8), the comparison ends with an error, or its report tells it, or its report is the one which the whole baseline would give.", "quantifier": "all baselines, targets and places of the failures, all contents of files", "why_tests_cant": "A test makes one read fail at one place; that the model is then the one of a shorter file, and that no line is lost from the report, is about all failures and all contents.", "anchors": ["model/src/model.rs: Index::train", "model/src/process.rs: ChunkTrainer::add"]}
{"id": "C141", "title": "The name under which a file is compared follows its rules", "statement": "The index name of a path is the one which these rules give to its file name and to the name of its directory (the directory above when it is named by a commit of seven hexadecimal digits): an instance of qemu is `qemu/instance`; a file of a directory `pod` is named up to its first dash; a file `k8s_` with a dash is named up to its first dash, without directory; a file `pvc-` is `pvc`; any other one has the letters and symbols of its directory and name, without symbols at both ends and then without `.gz`. The rules give one name to every path, empty pieces, dots and a missing file name included.", "quantifier": "every path", "why_tests_cant": "A test has a few paths; that the rules cover all of them without conflict, and that the program follows them on each, is about all strings.", "anchors": ["model/src/files.rs: IndexName::from_path, is_small_hash, is_k8s_service, take_until_pod_uuid, parent_str"]}
{"id": "C142", "title": "A failure while the target is read is told, and only hides lines", "statement": "When files of the target can't be opened, or their reading fails after any of their lines, the report is still made. What it finds for an index name would be found without the failures, with the same distance; each reported line, and each line shown around it, is at its place in the whole file. When no file of an index name is in the read errors, what is reported for this name is exactly what is reported without the failures.", "quantifier": "every target whose files are readable, every choice of the files which fail and of the places where they fail, every model and every order of the groups", "why_tests_cant": "A test fails one file at one place; the lines of one file decide which lines are skipped in the next ones, so that a failure in one file changes what is looked at in all the others.", "anchors": ["model/src/model.rs: Model::report, Index::get_processor", "model/src/process.rs: ChunkProcessor::next, read_anomalies"]}
{"id": "C143", "title": "A failure in one file hides nothing of another one", "statement": "When all the files of the target are opened and the reading of some of them fails, a line of a file which is read to its end is found as it is found without the failures: it is in the report, with its distance, in this file or in another one of the same index name.", "quantifier": "every target whose files are readable, every choice of the files whose reading fails and of the places where it fails, every model and every order of the groups", "why_tests_cant": "A test fails one file at one place; the lines of the failed file are remembered as already reported for all the later files of the name.", "anchors": ["model/src/model.rs: Model::report", "model/src/process.rs: ChunkProcessor::read_anomalies, do_search_anomalies"]}
{"id": "C144", "title": "A line which was seen before, but for its dates, identifiers, numbers and secrets, is not reported", "statement": "A line of the target which says the same as a learned line of the baselines of its name, where each word is equal, or a value of the same volatile kind (date, hash, identifier, cookie, uuid, url, temporary path, git reference, base64), or equal but for its numbers, or a value of the same secret looking key, is not in the report; and no two lines which are reported for a name say the same in this sense.", "quantifier": "every tree of local baselines and target, every content of their files and every way of reading them, every pair of lines which are the same in this sense, every order of the groups, for a release build", "why_tests_cant": "A test replays some lines with some other dates; the claim is about all lines and all values, through the crawling, the reading, the tokenizer, the index and the report.", "anchors": ["tokenizer/src/lib.rs: process", "model/src/process.rs: ChunkProcessor::do_search_anomalies", "model/src/model.rs: Model::train, Model::report"]}
{"id": "C145", "title": "Comparing directories of web servers, or the logs of builds, is comparing copies of them on the disk", "statement": "When directories on the disk have the files which are listed from URLs, with the same data, and comparing these directories gives a report, then comparing the URLs, or the builds which have their logs at them, gives the same report, with the URLs of the files in place of their paths, whether LOGREDUCE_CACHE is set or not, and whatever was compared before.", "quantifier": "every set of copied directories, every content of their files, every way the servers and the disk cut it into blocks, every state of the cache left by other comparisons, every order of the groups", "why_tests_cant": "A test downloads one directory; the claim is about all trees and contents, and ties the paths, the base lengths of URLs, the names of indexes, the cache and the report together.", "anchors": ["model/src/urls.rs: url_open, httpdir_iter", "model/src/files.rs: dir_iter", "model/src/model.rs: Source::get_relative, Model::train, Model::report"]}
{"id": "C146", "title": "Exactly what the comparison of URLs and builds reports", "statement": "A comparison of URLs and builds gives a report exactly when each of them lists a file which is not ignored and the servers have all those of the baselines. The report is then exactly the one of the data of the files: for each name the new lines, by the distances to the lines learned from the files of this name, with their contexts, counts and errors. This is so with LOGREDUCE_CACHE set or not, and whatever was compared before.", "quantifier": "every content of the servers, every way they cut it into reads, every set of baselines and target, every history of runs which left something in the cache, every order of the groups", "why_tests_cant": "A test compares one pair of builds with a fresh cache; the claim ties the data of servers, through the network, the cache, the crawling, the tokenizer and the index, to the report for all of them.", "anchors": ["model/src/urls.rs: url_open, httpdir_iter", "model/src/reader.rs: from_url", "model/src/model.rs: Model::train, Model::report", "model/src/zuul.rs: sources_iter"]}
{"id": "C147", "title": "A listing requests each directory once, and at most four at a time", "statement": "While a site is listed or walked, at most four requests are waiting for their answer. A listing which ends requested the pages it had to visit and no other, each of them once, whatever the order in which the workers ran.", "quantifier": "every site, every root, every schedule of the workers and of the consumer", "why_tests_cant": "A test lists one small site with one schedule; the number of requests depends on the links of the whole site and on the schedules.", "anchors": ["httpdir/src/httpdir.rs: Crawler::new, Crawler::list, Crawler::walk, Crawler::process"]}
{"id": "C148", "title": "A comparison asks for each file once, and only for those it compares", "statement": "A comparison asks the servers at most once for the list of each baseline and of the target, at most once for each file of the baselines, and at most once for each file of the target which has a baseline to be compared with; the other files of the target are not downloaded. Without LOGREDUCE_CACHE, files on servers are asked for exactly once when no failure is told.", "quantifier": "every network, whatever it answers at each time, every state of the cache, every set of baselines and target, every order of the groups", "why_tests_cant": "A test counts the requests of one comparison; the claim bounds them for all sites, caches and failures.", "anchors": ["model/src/reader.rs: from_url", "model/src/urls.rs: httpdir_iter, url_open", "model/src/model.rs: Model::train, Model::report, Index::train"]}
{"id": "C149", "title": "A saved report is never loaded as a model, nor a saved model as a report", "statement": "Loading the file of a saved report as a model fails, and so does loading the file of a saved model as a report: a file given in the wrong place is refused and not read as something else.", "quantifier": "every report and every model which can be saved", "why_tests_cant": "The files have no mark of their kind; whether the bytes of one kind are refused as the other depends on all values of their fields.", "anchors": ["model/src/model.rs: Report::save, Report::load, Model::save, Model::load"]}
{"id": "C150", "title": "Whatever the servers answer, a comparison is exact for what was received", "statement": "When a comparison of URLs without LOGREDUCE_CACHE gives a report, that report is the one which would be made from local files holding what was received: the lists which were got, and for each file that was opened what the server sent for it during this comparison, a failure being an opening error. Nothing else of the target is in the report. Each file of the list which was got has nothing to be compared with, or a read error, or comes after a file of its name which could not be opened, or was wholly compared: either nothing was found, or it has a log report with exactly what was found.", "quantifier": "every program and machine, every sequence of answers of the servers (each request may be answered differently, or not at all, and a body may be cut or delayed), every order of the groups, every baselines and target in which no file is listed twice", "why_tests_cant": "Servers may change, fail or cut their answers between any two requests: tests try a few fixed servers.", "anchors": ["model/src/reader.rs: from_url", "model/src/urls.rs: url_open, httpdir_iter", "model/src/model.rs: Index::train, Model::train, Model::report"]}
{"id": "C151", "title": "The reduction shown by a report is a percentage, and the right one", "statement": "A report never has more anomalies than lines, and the page of a report shows, as its result, the part of the lines of the target which are not reported: a number from 0.00 to 100.00, within a hundredth of the exact percentage, 100 when nothing is reported, 0 when every line is, and never higher when more is reported.", "quantifier": "every report (target, model, reader results and order of the groups) and every pair of counts below 2^64, for every rounding to nearest of f32", "why_tests_cant": "The number goes through four roundings of f32 whose errors depend on the counts; tests check a few counts.", "anchors": ["report/src/report.rs: render", "model/src/model.rs: Model::report", "model/src/process.rs: ChunkProcessor"]}
{"id": "C152", "title": "A damaged saved file is refused", "statement": "A saved model or report whose bytes were changed afterwards, so that its checksum is wrong, is refused when it is loaded; it never gives another model or report.", "quantifier": "every saved model and report, and every change of the data of the file, of its checksum or of its size", "why_tests_cant": "all values and all damages; the checksum is only looked at by a read which follows the last byte", "anchors": ["model/src/model.rs: Model::load, Report::load", "model/src/model.rs: Model::save, Report::save"]}
{"id": "C153", "title": "Whatever the file, a matrix which is loaded is a matrix", "statement": "Loading a matrix or a model from any bytes gives only well formed matrices: each row has its elements, one value for each, in increasing columns which are columns of the matrix; a file with other numbers is refused, and a file with the numbers of a matrix is loaded as these numbers.", "quantifier": "all sequences of bytes, and all numbers of rows, columns, starts, columns of elements and values", "why_tests_cant": "Tests load files which the program wrote; the files which can be given are not bounded.", "anchors": ["index/src/index.rs: load_mat", "model/src/model.rs: Model::load"]}
