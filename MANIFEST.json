{
 "claims": [
  {
   "property": "C01",
   "status": "proved",
   "theorems": [
    "LJ.Iterator.C01_schedule_independent",
    "LJ.Iterator.C01_short_lines",
    "LJ.Iterator.C01_edge_one_read",
    "LJ.Iterator.C01_edge_two_reads"
   ],
   "note": "All schedules without overflow at a read boundary, and unconditionally when every piece is shorter than 6000 bytes. The edge theorems show that the hypothesis cannot be dropped."
  },
  {
   "property": "C02",
   "status": "proved",
   "theorems": [
    "LJ.Iterator.C02_lines_spec",
    "LJ.Iterator.C02_C03_pieces_are_the_content",
    "LJ.Iterator.C02_C03_plain_text"
   ],
   "note": "Refinement of the one-pass splitter; the splitter is characterised by reassembling the content."
  },
  {
   "property": "C03",
   "status": "partial",
   "theorems": [
    "LJ.Iterator.C03_line_numbers_partial",
    "LJ.Iterator.C03_numbers_sorted",
    "LJ.Iterator.C02_C03_pieces_are_the_content",
    "LJ.Iterator.C03_C05_full_read_lost",
    "LJ.Iterator.C90_before",
    "LJ.Iterator.C125_exact"
   ],
   "note": "Full statement false after an over-long line that spans reads (witness C03_C05_full_read_lost); proved for schedules without overflow; numbers are sorted and at least 1 for every sequence of read results. What happens in every other schedule is exactly C125_exact."
  },
  {
   "property": "C04",
   "status": "proved",
   "theorems": [
    "LJ.Iterator.C04_line_size"
   ],
   "note": "Every reachable state, any read results."
  },
  {
   "property": "C05",
   "status": "partial",
   "theorems": [
    "LJ.Iterator.C05_long_line_partial",
    "LJ.Iterator.C05_neighbour_lost",
    "LJ.Iterator.C05_neighbour_corrupted",
    "LJ.Iterator.C03_C05_full_read_lost",
    "LJ.Iterator.C90_before",
    "LJ.Iterator.C125_exact"
   ],
   "note": "The code violates the full statement: three witnesses with the real constants. Proved when the over-long line ends in the data at hand. For every schedule the lines before the first over-long one are yielded unchanged (C90_before). What happens in every other schedule is exactly C125_exact."
  },
  {
   "property": "C06",
   "status": "proved",
   "theorems": [
    "LJ.Iterator.C06_bounded_buffer"
   ],
   "note": ""
  },
  {
   "property": "C07",
   "status": "partial",
   "theorems": [
    "LJ.Iterator.C07_error_position_partial",
    "LJ.Iterator.C07_error_never_swallowed",
    "LJ.Iterator.C07_line_lost_before_error",
    "LJ.Iterator.C90_so_far",
    "LJ.Iterator.C125_error"
   ],
   "note": "Exact position for schedules without overflow; the error is never swallowed for every schedule. Full statement false after an over-long line (witness). What happens in every other schedule is exactly C125_error."
  },
  {
   "property": "C08",
   "status": "partial",
   "theorems": [
    "LJ.Iterator.C08_release_no_panic",
    "LJ.Iterator.C08_release_finishes",
    "LJ.Iterator.C08_stays_finished",
    "LJ.Iterator.C08_debug_no_panic_partial",
    "LJ.Iterator.C08_debug_panics",
    "LJ.Iterator.C125_debug"
   ],
   "note": "Release builds: full. Debug builds: an underflow panic is reachable (witness), otherwise proved without overflow. The depth of the recursive calls is the subject of C92. Exactly when a debug build panics: C125_debug."
  },
  {
   "property": "C09",
   "status": "proved",
   "theorems": [
    "LJ.Tokenizer.C09_recursion_shrinks",
    "LJ.Tokenizer.C09_recursive_equation",
    "LJ.Tokenizer.C09_trim_insensitive",
    "LJ.Tokenizer.C09_only_trimmed_matters",
    "LJ.Tokenizer.C09_result_trimmed"
   ],
   "note": "for every set of word characters"
  },
  {
   "property": "C10",
   "status": "proved",
   "theorems": [
    "LJ.Tokenizer.C10_no_digits"
   ],
   "note": ""
  },
  {
   "property": "C100",
   "status": "proved",
   "theorems": [
    "LJ.Program.C100_lines",
    "LJ.Program.C100_bytes",
    "LJ.Program.C100_text",
    "LJ.Program.C100_exact"
   ],
   "note": "C100_exact: every content, file or directory, over-long lines included (release build), in terms of the lines of C125; the others: both builds, lines below 6000 bytes, in terms of the text."
  },
  {
   "property": "C101",
   "status": "proved",
   "theorems": [
    "LJ.Program.C101_diff",
    "LJ.Program.C101_page",
    "LJ.Program.C101_quiet"
   ],
   "note": "the live output numbers the context lines one too low (C66): the theorem says which numbers are printed. The distances are those of the index up to the rounding errors (Near). Texts with LF ends whose lines do not announce the log classifier."
  },
  {
   "property": "C102",
   "status": "partial",
   "theorems": [
    "LJ.Program.C102_partial",
    "LJ.Program.C102_false"
   ],
   "note": "false of the code for names which start with http: diff reads them as URLs (C102_false). Also proved with a model path which does not exist."
  },
  {
   "property": "C103",
   "status": "proved",
   "theorems": [
    "LJ.Program.C103_mode",
    "LJ.Program.C103_main",
    "LJ.Program.C103_plain",
    "LJ.Program.C103_level"
   ],
   "note": "All the texts of the standard output except the messages of the logger."
  },
  {
   "property": "C104",
   "status": "partial",
   "theorems": [
    "LJ.Remote.C104_partial",
    "LJ.Remote.C104_again",
    "LJ.Remote.C104_false"
   ],
   "note": "For responses whose reads do not fail and whose lines are below the 6000 bytes limit; false when the connection is lost while a file is read."
  },
  {
   "property": "C105",
   "status": "partial",
   "theorems": [
    "LJ.Remote.C105_partial",
    "LJ.Remote.C105_false",
    "LJ.Remote.demo_stable"
   ],
   "note": "For files with short lines of text without the marker at which the processor stops, read without failure; false for a file with the marker."
  },
  {
   "property": "C106",
   "status": "partial",
   "theorems": [
    "LJ.Remote.C106_partial",
    "LJ.Remote.C106_false"
   ],
   "note": "For files and local directories; false for what servers list, which is always kept and used again."
  },
  {
   "property": "C107",
   "status": "proved",
   "theorems": [
    "LJ.Tokenizer.C107_rules"
   ],
   "note": "the rules are the inductive relation Spec.Reading of Verif/Tokenizer/Rules.lean, which does not use the functions of the model for cutting words; the volatile values and keywords are those of C11 and C12"
  },
  {
   "property": "C108",
   "status": "partial",
   "theorems": [
    "LJ.Whole.C108_partial",
    "LJ.Whole.C108_false",
    "LJ.Paths.same_below",
    "LJ.Report.renamed_report"
   ],
   "note": "holds for the places whose path has no directory named etc below another one and does not end with local, pacemaker, mysql or corosync; false otherwise, because is_valid looks at the whole path (C108_false: a comparison which works at /logs is refused at /srv/etc/logs). The order of the walk is the same at both places."
  },
  {
   "property": "C109",
   "status": "proved",
   "theorems": [
    "LJ.Zuul.C109_build",
    "LJ.Zuul.C109_times",
    "LJ.Zuul.C109_last",
    "LJ.Zuul.C109_element",
    "LJ.Zuul.C109_builds"
   ],
   "note": "the URL parser, the JSON parser and the conversion of numbers with a fraction are parameters"
  },
  {
   "property": "C11",
   "status": "proved",
   "theorems": [
    "LJ.Tokenizer.C11_error_word",
    "LJ.Tokenizer.C11_error_amplified"
   ],
   "note": "for every position, letter case and surrounding punctuation"
  },
  {
   "property": "C110",
   "status": "partial",
   "theorems": [
    "LJ.Render.C110_partial",
    "LJ.Render.C110_empty",
    "LJ.Render.C110_false"
   ],
   "note": "false for the paths which are not UTF-8: their link is empty (C110_empty, C110_false). Proved for all URLs and all UTF-8 paths. A relative path is relative to the directory of the page for a browser; this is not modelled."
  },
  {
   "property": "C111",
   "status": "partial",
   "theorems": [
    "LJ.Render.C111_partial",
    "LJ.Render.C111_table",
    "LJ.Render.C111_false"
   ],
   "note": "False: the pages of two paths which are not UTF-8 have the same title. Proved for UTF-8 paths, URLs, and builds whose identifier has no slash."
  },
  {
   "property": "C112",
   "status": "proved",
   "theorems": [
    "LJ.Remote.C112"
   ],
   "note": "from the parsed URL to the report, without the cache; the API answers and HEAD answers are the ones of a site for the whole run; JSON text parsing and URL joining are parameters (trusted crates)"
  },
  {
   "property": "C113",
   "status": "partial",
   "theorems": [
    "LJ.Remote.C113_partial",
    "LJ.Remote.C113_transparent_partial"
   ],
   "note": "equality of results (errors and panics included) with the cache set or not after any runs; missing: logs with the marker, too long lines or interrupted reads, for which it is false (C105_false)"
  },
  {
   "property": "C114",
   "status": "partial",
   "theorems": [
    "LJ.Remote.C114_again",
    "LJ.Remote.C114_partial",
    "LJ.Remote.C114_false"
   ],
   "note": "C114_again: the maps drained in the same order, C114_partial: in any order. False without the hypothesis on HEAD requests (C114_false): a HEAD which gets no answer is not kept, so that another baseline is taken when the server is back. Also assumed: the bodies of the log files end without an error (see C104_false) and the lines are shorter than a chunk; the other runs given a URL found their build and their baseline, as a document which can't be decoded is dropped."
  },
  {
   "property": "C115",
   "status": "proved",
   "theorems": [
    "LJ.Program.C115_diff",
    "LJ.Program.C115_trained"
   ],
   "note": "Proved of the whole program (`main`), for every listing, training and rendering; a model is read back as it was saved (C70). The messages of the logger are left out."
  },
  {
   "property": "C116",
   "status": "proved",
   "theorems": [
    "LJ.Remote.C116_input",
    "LJ.Remote.C116_baselines",
    "LJ.Remote.C116_panic"
   ],
   "note": "without the cache; C113 carries the result over to the cache on servers whose content does not change. The URL parser and joins, and the JSON parser are parameters"
  },
  {
   "property": "C117",
   "status": "partial",
   "theorems": [
    "LJ.Shared.C117_partial",
    "LJ.Shared.C117_race",
    "LJ.Shared.C117_own",
    "LJ.Shared.C117_false",
    "LJ.Shared.C117_disk_false"
   ],
   "note": "False of listings: two runs which both saw that a listing is missing write the same file, one truncates it under the other, and a third run reads a listing with no entry (C117_false). False of a download whose write fails when the drop of its reader can write again: a part is kept as the whole (C117_disk_false; also after a network failure, C54_false). Proved for every schedule, with kills and failures of the disk, in which the file of a download which did not come to its end is left as it is and no process creates a file which another one created since its check (C117_partial); with such races, for contents and HEAD requests, if the checksum detects bytes replaced by zeros (C117_race). A run which asks the network itself gets what the servers have or an error in every schedule, with failures and drops (C117_own)."
  },
  {
   "property": "C118",
   "status": "partial",
   "theorems": [
    "LJ.Shared.C118_partial",
    "LJ.Shared.C118_kept",
    "LJ.Shared.C118_false"
   ],
   "note": "False of the code: a run which reads an entry while another one downloads it fails, a run whose entry was created meanwhile fails, and a killed run can destroy an entry which another one completed (C118_false). Proved: after any schedule in which no process is killed and no access to the disk fails, when all have ended, every entry is complete and read by a new run (C118_partial), and what a run got has an entry if nothing is removed (C118_kept)."
  },
  {
   "property": "C119",
   "status": "proved",
   "theorems": [
    "LJ.Saved.C119_live"
   ],
   "note": "f32 rounds to nearest (FP.IsF32); the paths of the sources are UTF-8 and counts fit in 64 bits (Saveable), otherwise saving fails."
  },
  {
   "property": "C12",
   "status": "proved",
   "theorems": [
    "LJ.Tokenizer.C12_volatile_equal",
    "LJ.Tokenizer.C12_class_token",
    "LJ.Tokenizer.C12_hex_is_id"
   ],
   "note": "classes are defined in the specification without regular expressions"
  },
  {
   "property": "C120",
   "status": "partial",
   "theorems": [
    "LJ.Report.C120_partial",
    "LJ.Report.C120_baseline_partial",
    "LJ.Report.C120_train_partial",
    "LJ.Report.C120_false",
    "LJ.Report.C120_open_false",
    "LJ.Report.C120_json_false",
    "LJ.Whole.C120_trees_partial",
    "LJ.Whole.C120_trees_baseline_partial"
   ],
   "note": "False in full: a line which is in two files of a name is shown under the one listed first, a source which can't be opened hides those listed after it, and the first source of a name decides whether all are read as JSON (three witnesses). Proved: the same model and the same report for any order of the baselines when the sources of a name are all JSON or all not; the same normalised lines, distances and totals for any order of the target when its sources can be read. The search hypotheses hold of both indexes (searchOk_indexWorld, unordered_indexWorld). C120_trees_partial and C120_trees_baseline_partial: the same for files and directories of any content."
  },
  {
   "property": "C121",
   "status": "proved",
   "theorems": [
    "LJ.Program.C121_test",
    "LJ.Program.C121_groups",
    "LJ.Program.C121_iterator",
    "LJ.Program.C121_pure",
    "LJ.Program.C121_files",
    "LJ.Program.C121_unread"
   ],
   "note": "C121_unread: an error met while the file is read is printed among the lines of debug-iterator, which succeeds."
  },
  {
   "property": "C122",
   "status": "partial",
   "theorems": [
    "LJ.Output.C122_same",
    "LJ.Output.C122_checked",
    "LJ.Output.C122_handlers",
    "LJ.Output.C122_handlers_partial",
    "LJ.Render.C122_partial",
    "LJ.Render.C122_false"
   ],
   "note": "The elements which load or run something are the same in every page; no attribute has a handler if no quote is in the names of models and in the locations shown. False otherwise: a quote in the name of a file ends the attribute, and what follows can be a handler (C122_false). The escape of texts is html_builder's, not modelled."
  },
  {
   "property": "C123",
   "status": "partial",
   "theorems": [
    "LJ.Render.C123_partial",
    "LJ.Render.C123_false",
    "LJ.Output.C123_items",
    "LJ.Output.C123_debug",
    "LJ.Output.C123_content",
    "LJ.Output.C123_hidden"
   ],
   "note": "C123_false: a quote in the name of a file ends the attribute of its link, and what follows can make it debug information, which is hidden. C123_partial: without quotes in the names of the models, files and first three baselines of the reported files, the page as a browser reads it. The other theorems are about the page each attribute of which is taken as one attribute. The script of the page, with the functions of jQuery which it calls, on the elements of the page; clicks are any list of places of the page. C123_hidden: which parts of the page are in the debug information, and which are not."
  },
  {
   "property": "C124",
   "status": "proved",
   "theorems": [
    "LJ.Program.C124_read",
    "LJ.Program.C124_unique",
    "LJ.Program.C124_runs",
    "LJ.Program.C124_nothing",
    "LJ.Program.C124_status",
    "LJ.Program.C124_info",
    "LJ.Program.C124_panic"
   ],
   "note": "The declarations of main.rs, with the parser of clap 3.2 as it is documented and from its source as known (it is not in /repo). After --, diff accepts a dash only in its first word: -a and -b can't be compared."
  },
  {
   "property": "C125",
   "status": "proved",
   "theorems": [
    "LJ.Iterator.C125_exact",
    "LJ.Iterator.C125_error",
    "LJ.Iterator.C125_before",
    "LJ.Iterator.C125_after",
    "LJ.Iterator.C125_debug"
   ],
   "note": "Every schedule: the exact result of release builds, also before an error; exactly when debug builds panic, else they agree; the lines before the first over-long line; the recovery (plain text)."
  },
  {
   "property": "C126",
   "status": "proved",
   "theorems": [
    "LJ.Process.C126_exact",
    "LJ.Process.C126_marker",
    "LJ.Process.C126_fails"
   ],
   "note": "The specification is Spec.reported in Process/Exact; for the two indexes the hypothesis is discharged by C34_search."
  },
  {
   "property": "C127",
   "status": "proved",
   "theorems": [
    "LJ.Report.C127_report",
    "LJ.Whole.C127_files",
    "LJ.Whole.C127_trees"
   ],
   "note": "C127_report: every world, with the contexts of the anomalies; C127_files: the tool comparing two files; C127_trees: files and directories, JSON or not, against a self-contained description (Spec.Describes) of the bytes and the distances to the learned lines; release build (in a debug build the iterator can panic, C125)."
  },
  {
   "property": "C128",
   "status": "proved",
   "theorems": [
    "LJ.Process.C128_exact",
    "LJ.Process.C128_small"
   ],
   "note": "C128_exact: equality of the whole list of contexts, with Spec.shown, a description without buffers, positions and coordinates; C128_small: consequence, at most three lines before and after, and each anomaly is a line of the source over the threshold."
  },
  {
   "property": "C129",
   "status": "proved",
   "theorems": [
    "LJ.Program.C129_ok",
    "LJ.Program.C129_announced",
    "LJ.Program.C129_written",
    "LJ.Program.C129_train"
   ],
   "note": "C129_announced uses that the debug form of a path starts with a quotation mark; C129_written that the report file is neither the model file nor the raw report. Messages of the logger are left out."
  },
  {
   "property": "C13",
   "status": "proved",
   "theorems": [
    "LJ.Tokenizer.C13_value_independent",
    "LJ.Tokenizer.C13_no_leak"
   ],
   "note": "value independence for ordinary words; no_leak bounds what any value can produce"
  },
  {
   "property": "C130",
   "status": "proved",
   "theorems": [
    "LJ.Output.C130_live",
    "LJ.Output.C130_rows",
    "LJ.Program.C130_diff",
    "LJ.Program.C130_report"
   ],
   "note": "C130_live: every world; C130_diff and C130_report: the local tool on files and directories (trees as listed by the walker), release build. Messages of the logger are left out."
  },
  {
   "property": "C131",
   "status": "partial",
   "theorems": [
    "LJ.Process.C131_source",
    "LJ.Report.C131_partial",
    "LJ.Report.C131_false",
    "LJ.Report.C131_marker_false",
    "LJ.Whole.C131_trees_partial"
   ],
   "note": "C131_partial: for each name which has a file in the first baselines, and without marker lines (\"TASK [log-classify\") in the files of this name; any world whose distances shrink, which those of the program do for any arithmetic (shrinks_indexWorld). For one source it holds with marker lines as well (C131_source). The full statement is false: without a file of this name the only index is used, and one more baseline can replace it (C131_false); a marker line ends the report of a file when nothing is found before it, and its following lines are then new to the next file (C131_marker_false)."
  },
  {
   "property": "C132",
   "status": "proved",
   "theorems": [
    "LJ.Report.C132_kind",
    "LJ.Whole.C132_trees"
   ],
   "note": "C132_kind: any world; C132_trees: files and directories of any bytes, release build. The condition that the baselines have a file of the kind is needed: without it the only index is used, which depends on the other kinds (see C131_false)."
  },
  {
   "property": "C133",
   "status": "partial",
   "theorems": [
    "LJ.Process.C133_source",
    "LJ.Process.C133_false",
    "LJ.Iterator.C133_lines",
    "LJ.Iterator.C133_lines_false",
    "LJ.Iterator.C133_lines_open_false",
    "LJ.Report.C133_partial",
    "LJ.Whole.C133_trees_partial",
    "LJ.Report.C133_file_partial",
    "LJ.Whole.C133_trees_file_partial"
   ],
   "note": "Proved when the grown log is read without a failure (C133_source: for every sequence of results of the reader), ends with a line return which is not after a backslash and has no line over 6000 bytes : for each file of its own (C133_file_partial, C133_trees_file_partial), and for all the contexts of a kind when it is the last file of this kind (C133_partial, C133_trees_partial). The full statement is false: one added line which is not UTF-8 drops every anomaly of the last chunk (C133_false), a line return after a backslash does not end the line (C133_lines_false), and a last line without line return goes on (C133_lines_open_false)."
  },
  {
   "property": "C134",
   "status": "proved",
   "theorems": [
    "LJ.Report.C134_known",
    "LJ.Report.C134_files",
    "LJ.Whole.C134_trees"
   ],
   "note": "C134_known: any world whose search does not depend on the arrangement, which both indexes meet (unordered_indexWorld); C134_files: the same files in any order and number have the same normalised lines, when the files of a kind are all JSON or all not (the first one decides how all are read: C120_json_false); C134_trees: files and directories of any bytes, release build."
  },
  {
   "property": "C135",
   "status": "proved",
   "theorems": [
    "LJ.Process.C135_source",
    "LJ.Report.C135_report",
    "LJ.Whole.C135_trees"
   ],
   "note": "C135_source: one source, any results of the reader. C135_report: every model and listing. C135_trees: bytes of files and directories, release build. Which values are removed is C12."
  },
  {
   "property": "C136",
   "status": "proved",
   "theorems": [
    "LJ.Report.C136_same",
    "LJ.Report.C136_split",
    "LJ.Report.C136_more",
    "LJ.Whole.C136_trees",
    "LJ.Whole.C136_trees_cut",
    "LJ.Iterator.C136_cut",
    "LJ.Iterator.C136_cut_json_false"
   ],
   "note": "For all files which can be read; C136_trees is over the bytes of files and directories in a release build. C136_trees_cut gives the hypothesis of C136_trees for a plain log which is cut; C136_cut_json_false shows that a JSON file cut inside of a string is not read as the sum of its parts, which is why C136_trees_cut is about plain files."
  },
  {
   "property": "C137",
   "status": "proved",
   "theorems": [
    "LJ.Program.C137_quiet",
    "LJ.Program.C137_tokens",
    "LJ.Program.C137_names",
    "LJ.Program.C137_lines"
   ],
   "note": "For local files and directories. C137_tokens is about release builds (with debug assertions a long word can stop the reading of a file); C137_quiet is about logs of plain lines, as C101."
  },
  {
   "property": "C138",
   "status": "proved",
   "theorems": [
    "LJ.Index.C138_cosine",
    "LJ.Program.C138_diff",
    "LJ.Program.C138_trees"
   ],
   "note": "For lines of at most 6000 bytes, which is what the program reads. C138_trees is about release builds; that the far lines are all reported supposes that the files of the target can be read (C127 says what is reported otherwise)."
  },
  {
   "property": "C139",
   "status": "proved",
   "theorems": [
    "LJ.Report.C139_train",
    "LJ.Report.C139_equal",
    "LJ.Saved.C139_memory",
    "LJ.Saved.C139_file",
    "LJ.Whole.C139_trees",
    "LJ.Whole.C139_trees_equal"
   ],
   "note": "That the value of a secret-looking key is removed is C13. The clocks which are saved in the model are the same in both executions. The names of the files are in the model."
  },
  {
   "property": "C14",
   "status": "proved",
   "theorems": [
    "LJ.Tokenizer.C14_linear",
    "LJ.Tokenizer.C14_no_long_fragment"
   ],
   "note": "factor 14; fragments of at most 32 bytes including an added separator"
  },
  {
   "property": "C140",
   "status": "partial",
   "theorems": [
    "LJ.Report.C140_exact",
    "LJ.Report.C140_partial",
    "LJ.Report.C140_false",
    "LJ.Whole.C140_trees"
   ],
   "note": "False of the code: the error is only logged (C140_false: the rest of the baseline is reported as new in the target, by a report without an error). C140_exact: the model is exactly the one of files which end where their reading fails. C140_partial: a failure can only add lines to the report, for the names without marker lines in the target; the errors of the report are the same. C140_trees: for the bytes of files, what follows the first line which is not UTF-8 is not learned. A baseline which can't be opened is an error of the training (C75_train)."
  },
  {
   "property": "C141",
   "status": "proved",
   "theorems": [
    "LJ.Paths.C141_name",
    "LJ.Paths.C141_rules",
    "LJ.Paths.C141_parts"
   ],
   "note": "The rules are an inductive relation on the names of the path (Parts, Named), without the functions of the program; `Path::components`, `file_name` and `parent` of the standard library are modelled for Unix."
  },
  {
   "property": "C142",
   "status": "proved",
   "theorems": [
    "LJ.Report.C142_failures",
    "LJ.Whole.C142_trees"
   ],
   "note": "The files of the target have decodable lines, without the marker of the program's own report. A file which can't be opened also hides the later files of its index name, and a failed reading hides the lines which were found in the chunk being read; the error of the name is told in both cases. For the baselines the claim is false: C140. C142_trees: the same for the bytes of local files, whose reads fail anywhere."
  },
  {
   "property": "C143",
   "status": "partial",
   "theorems": [
    "LJ.Report.C143_partial",
    "LJ.Report.C143_false",
    "LJ.Whole.C142_trees"
   ],
   "note": "False of the code (C143_false): the lines which are read before the failure are added to the skipped lines at once, and reported only at the end of their chunk; when the reading fails in between, they are neither reported for the failed file nor for the later files which have them too. C143_partial: what is missing is always in a file of the name whose failure is told, or a file of the name can't be opened, which is told. For the bytes of local files it is the last part of C142_trees."
  },
  {
   "property": "C144",
   "status": "proved",
   "theorems": [
    "LJ.Whole.C144_replay",
    "LJ.Remote.C144_online"
   ],
   "note": "The words are compared by the volatile kinds of the specification of the tokenizer (C12, C13, C15), not by the tokens. Learned lines are the lines of the files of the name until a line which is no text. Of a debug build nothing is claimed, where overflow checks may end the training with a panic. C144_online: the same for URLs and builds, with or without the cache, under the hypotheses of C146."
  },
  {
   "property": "C145",
   "status": "partial",
   "theorems": [
    "LJ.Remote.C145_partial",
    "LJ.Remote.C145_orders_partial",
    "LJ.Remote.C145_false"
   ],
   "note": "Proved when the files are listed in the order of the walk (C145_partial: the same report) or in any other order (C145_orders_partial: the same tokens and distances for each name, and the same totals, when the servers have the files they list and the files of a name are all JSON or all not), the first 42 bytes of their URLs are URLs, their lines are short texts without the marker line, and the places do not make files ignored (C108). Refuted at URLs of less than 42 bytes: the program panics there although the copy gives a report (C44). Missing: long lines (C125), marker lines (C105_false); which of several equal lines is shown in another order (C120_false)."
  },
  {
   "property": "C146",
   "status": "partial",
   "theorems": [
    "LJ.Remote.C146_partial",
    "LJ.Remote.C145_false"
   ],
   "note": "For files which do not change, with short lines of text and without the marker line. Missing: listed URLs of less than 42 bytes, where the program panics (C145_false), long lines (C125), marker lines (C105_false). DistancesTo and Tells are the specification of C127 on the data of the servers."
  },
  {
   "property": "C147",
   "status": "partial",
   "theorems": [
    "LJ.Crawler.C147_width",
    "LJ.Crawler.C147_walk",
    "LJ.Crawler.C147_partial",
    "LJ.Crawler.C147_schedules",
    "LJ.Crawler.C147_false"
   ],
   "note": "At most four requests at a time, for exactly the pages to visit, and as many times whatever the schedule. A page is requested once for each way of links which leads to it, not once: C147_false gives for every n a site of n+1 pages which gets 2^(n+1)-1 requests."
  },
  {
   "property": "C148",
   "status": "proved",
   "theorems": [
    "LJ.Remote.C148_train",
    "LJ.Remote.C148_report",
    "LJ.Remote.C148_exact",
    "LJ.Remote.C148_compare"
   ],
   "note": "The listing of a place counts as one request here; its pages are counted by C147. The discovery of baselines of builds is not part of it."
  },
  {
   "property": "C149",
   "status": "partial",
   "theorems": [
    "LJ.Codec.C149_report_partial",
    "LJ.Codec.C149_file_partial",
    "LJ.Codec.C149_short_partial",
    "LJ.Codec.C149_model_partial",
    "LJ.Codec.C149_empty",
    "LJ.Codec.C149_false",
    "LJ.Codec.C149_confused"
   ],
   "note": "Refused: reports of comparisons of at least a second (whose nanoseconds are not 0, 1 or 2), of shorter ones whose target is not a single file (below 4 GiB), and of shorter ones of a single file whose location has more than twenty bytes (below 4 GiB, at least a nanosecond), and all reports of shorter ones with less than 60 bytes for each nanosecond of the comparison (C149_short_partial); models below 4 GiB whose first baseline has an ordinary location, and models without baseline and index (C149_empty). False in general: the report of a file by a comparison which took no time is loaded as a model without baselines and indexes (C149_false, and C149_confused for every such report). Not covered: larger reports of such comparisons of single files with short names."
  },
  {
   "property": "C15",
   "status": "proved",
   "theorems": [
    "LJ.Tokenizer.C15_global_filter",
    "LJ.Tokenizer.C11_error_word"
   ],
   "note": "any other line word by word: C11_error_word"
  },
  {
   "property": "C150",
   "status": "proved",
   "theorems": [
    "LJ.Remote.C150_sent",
    "LJ.Remote.C150_train",
    "LJ.Remote.C150_report",
    "LJ.Remote.C150_accounted",
    "LJ.Remote.C150_compare"
   ],
   "note": "Without the cache, for contents in which no file is listed twice (a file listed twice could be answered twice, differently). With the cache see C105 and C145. C150_sent: the lines of a response which comes whole, and of one whose connection is lost after n bytes, for lines below 6000 bytes (for longer ones see C125)."
  },
  {
   "property": "C151",
   "status": "partial",
   "theorems": [
    "LJ.Output.C151_count",
    "LJ.Output.C151_partial",
    "LJ.Output.C151_monotone",
    "LJ.Output.C151_decimals",
    "LJ.Output.C151_report",
    "LJ.Output.C151_false"
   ],
   "note": "False when no line of the target was read: the page shows NaN (C151_false: an empty file). Proved in all other cases: between 0 and 100, within 0.0001 before and 0.0051 after the rounding to two decimals, exact at both ends, monotone. C151_report: exactly what is shown. How a number is written in decimal digits is not modelled, but for being a nearest one."
  },
  {
   "property": "C152",
   "status": "partial",
   "theorems": [
    "LJ.Codec.C152_partial",
    "LJ.Codec.C152_unchecked",
    "LJ.Codec.C152_false"
   ],
   "note": "False: the value is complete before the end of the compressed file, which is never read, so that the checksum is not looked at: a change of one byte gives another model (C152_false), and every change which makes the data those of another model or report is accepted (C152_unchecked). C152_partial: files of which only a part of the data can be decoded are refused. The coding of the blocks is not modelled; that flate2 looks at the checksum in the read after the last byte is its behaviour as documented in the model."
  },
  {
   "property": "C153",
   "status": "proved",
   "theorems": [
    "LJ.Codec.C153_exact",
    "LJ.Codec.C153_loaded"
   ],
   "note": "WellFormed is the specification, by positions; the check modelled is the one sprs makes when it reads a matrix (a library, see the trusted base)."
  },
  {
   "property": "C16",
   "status": "proved",
   "theorems": [
    "LJ.Tokenizer.C16_word_local",
    "LJ.Tokenizer.C16_separators_irrelevant",
    "LJ.Tokenizer.C16_split_exists_unique"
   ],
   "note": ""
  },
  {
   "property": "C17",
   "status": "proved",
   "theorems": [
    "LJ.Index.C17_range",
    "LJ.Index.C17_at_most_one",
    "LJ.Index.C17_rounding",
    "LJ.Index.C19_rows_f32",
    "LJ.Index.C17_f32_false"
   ],
   "note": "Exact arithmetic for the three implementations; for any rounding the upper bound; for f32-like rounding (hypothesis FP.Standard, derived in Index/F32 from rounding to the nearest binary32 number, fused or not) the lower bound. C19_rows_f32: row by row search stays in [0,1] in f32. C17_f32_false: the matrix search does return a negative number."
  },
  {
   "property": "C18",
   "status": "proved",
   "theorems": [
    "LJ.Index.C18_zero",
    "LJ.Index.C18_rounding",
    "LJ.Index.C19_rows_f32"
   ],
   "note": "Exact arithmetic for the three implementations, rounding bound for the chunked matrix search used by the program; exactly 0 for the row by row search in f32 (C19_rows_f32)."
  },
  {
   "property": "C19",
   "status": "proved",
   "theorems": [
    "LJ.Index.C19_rows",
    "LJ.Index.C19_mat",
    "LJ.Index.C19_chunks",
    "LJ.Index.C19_agree",
    "LJ.Index.C19_chunks_any_rounding",
    "LJ.Index.C19_rounding",
    "LJ.Index.C19_rounding_uniform",
    "LJ.Index.C19_rows_f32"
   ],
   "note": "sprs matrix product, dot and l2_norm are modelled by their definition over sorted sparse rows. C19_rows_f32: with binary32 rounding to nearest (any tie rule, fused or not), row by row search is within 6/2^24 of the exact distance for lines of any length."
  },
  {
   "property": "C20",
   "status": "proved",
   "theorems": [
    "LJ.Index.C20_arrangement",
    "LJ.Index.C20_targets"
   ],
   "note": "For any rounding."
  },
  {
   "property": "C21",
   "status": "proved",
   "theorems": [
    "LJ.Index.C21_monotone",
    "LJ.Index.C21_add"
   ],
   "note": "For any rounding."
  },
  {
   "property": "C22",
   "status": "proved",
   "theorems": [
    "LJ.Index.C22_well_formed",
    "LJ.Index.C22_columns",
    "LJ.Index.C22_order_insensitive",
    "LJ.Index.C22_order_matters_on_collision"
   ],
   "note": "For every hash function."
  },
  {
   "property": "C23",
   "status": "proved",
   "theorems": [
    "LJ.Index.C23_zero_iff",
    "LJ.Index.C23_disjoint",
    "LJ.Index.C23_below_one"
   ],
   "note": "Distance 0 and below 1 in exact arithmetic; disjoint words for any rounding."
  },
  {
   "property": "C24",
   "status": "proved",
   "theorems": [
    "LJ.Process.C24_chunks",
    "LJ.Process.C24_once"
   ],
   "note": "Any list of readers, with read errors and invalid UTF-8 at any place."
  },
  {
   "property": "C25",
   "status": "proved",
   "theorems": [
    "LJ.Process.C25_anomalies",
    "LJ.Process.C25_counts"
   ],
   "note": "Sources read without failure and without the marker; failures and the marker are C26_any, C31 and C32."
  },
  {
   "property": "C26",
   "status": "proved",
   "theorems": [
    "LJ.Process.C26_windows",
    "LJ.Process.C26_any"
   ],
   "note": "C26_any: any sequence of reader results. C26_windows also locates the windows on the anomalies of the source."
  },
  {
   "property": "C27",
   "status": "partial",
   "theorems": [
    "LJ.Process.C27_partial",
    "LJ.Process.C27_short_partial",
    "LJ.Process.C27_new_end_partial",
    "LJ.Process.C27_false",
    "LJ.Process.C128_exact"
   ],
   "note": "The full statement (AfterComplete) is false: C27_false is a source of 514 lines. Proved: complete unless a chunk ends within the context or at the end of the source; always for sources under 512 lines or whose last line is new. What is shown in every other case is given exactly by C128."
  },
  {
   "property": "C28",
   "status": "partial",
   "theorems": [
    "LJ.Process.C28_partial",
    "LJ.Process.C28_short_partial",
    "LJ.Process.C28_false",
    "LJ.Process.C128_exact"
   ],
   "note": "The full statement (NoOverlap) is false: C28_false is a source of 5122 lines. Proved: no overlap unless a chunk ends between the two anomalies; always for sources under 512 lines. What is shown in every other case is given exactly by C128."
  },
  {
   "property": "C29",
   "status": "proved",
   "theorems": [
    "LJ.Process.C29_bounded",
    "LJ.Process.C29_states"
   ],
   "note": "Every reachable state; the bound on targets is attained (example in Witness.lean)."
  },
  {
   "property": "C30",
   "status": "proved",
   "theorems": [
    "LJ.Process.C30_no_panic",
    "LJ.Process.C30_search",
    "LJ.Process.C30_finish"
   ],
   "note": "Any reader results and skip set; for the two indexes the hypothesis is discharged by C34_search."
  },
  {
   "property": "C31",
   "status": "partial",
   "theorems": [
    "LJ.Process.C31_marker_partial",
    "LJ.Process.C31_prefix_partial",
    "LJ.Process.C31_nothing_partial",
    "LJ.Process.C31_false",
    "LJ.Process.C126_marker"
   ],
   "note": "The full statement is false: C31_false reports a line after the marker. Proved: marker lines never appear in a context; the report for the part before the marker is returned first and complete; nothing is reported when that part has no anomaly. Exactly when the report ends at the marker, and what it has otherwise: C126_marker."
  },
  {
   "property": "C32",
   "status": "partial",
   "theorems": [
    "LJ.Process.C32_prefix_partial",
    "LJ.Process.C32_skip",
    "LJ.Process.C32_false",
    "LJ.Process.C126_fails"
   ],
   "note": "The full statement is false: C32_false loses an anomaly read before the failure, also for the next source. Proved: the error is returned, and the contexts before it are the first ones of the report without the failure. What is lost: C126_exact and, for a failure before the 512th line, everything: C126_fails."
  },
  {
   "property": "C33",
   "status": "proved",
   "theorems": [
    "LJ.Process.C33_concat",
    "LJ.Process.C33_once",
    "LJ.Process.C33_any",
    "LJ.Report.C33_report"
   ],
   "note": "C33_any and C33_report hold whatever the files are: read failures, lines which are not UTF-8 and markers included."
  },
  {
   "property": "C34",
   "status": "proved",
   "theorems": [
    "LJ.Process.C34_search",
    "LJ.Process.C34_known",
    "LJ.Process.C34_self",
    "LJ.Process.C34_noop"
   ],
   "note": "Both kinds of index, f32 rounding included (any arithmetic with the standard error bounds)."
  },
  {
   "property": "C35",
   "status": "proved",
   "theorems": [
    "LJ.Report.C35_groups",
    "LJ.Report.C35_once",
    "LJ.Report.C35_fail",
    "LJ.Report.C35_perm"
   ],
   "note": "Grouping is the partition by name in discovery order; the first unusable content gives its error."
  },
  {
   "property": "C36",
   "status": "proved",
   "theorems": [
    "LJ.Report.C36_lookup",
    "LJ.Report.C36_order"
   ],
   "note": "Characterisation of lookup_or_single and independence of the map order."
  },
  {
   "property": "C37",
   "status": "proved",
   "theorems": [
    "LJ.Report.C37_totals",
    "LJ.Report.C37_logs",
    "LJ.Report.report_total",
    "LJ.Report.C37_lines"
   ],
   "note": "For every order of the groups; SearchOk is proved for the indexes of the program (searchOk_indexWorld)."
  },
  {
   "property": "C38",
   "status": "partial",
   "theorems": [
    "LJ.Report.C38_partial",
    "LJ.Report.C38_group",
    "LJ.Report.C38_false"
   ],
   "note": "Missing: the code stops at the first source of a group which can't be opened, so the sources after it are in no list (C38_false). Everything else is proved."
  },
  {
   "property": "C39",
   "status": "proved",
   "theorems": [
    "LJ.Report.C39_report",
    "LJ.Report.C39_train",
    "LJ.Report.C39_model"
   ],
   "note": "For all pairs of orders, training and report."
  },
  {
   "property": "C40",
   "status": "proved",
   "theorems": [
    "LJ.Paths.C40_same",
    "LJ.Paths.C40_rotation",
    "LJ.Paths.C40_rotation_any",
    "LJ.Paths.C40_letters",
    "LJ.Paths.C40_hash",
    "LJ.Paths.C40_exceptions"
   ],
   "note": "C40_same and C40_rotation: every path which is not special, with or without a directory, below directories named by commits too. C40_rotation_any: special ones too, when their name has a dash (pods, services); the exceptions are needed (C40_exceptions)."
  },
  {
   "property": "C41",
   "status": "partial",
   "theorems": [
    "LJ.Paths.C41_clean",
    "LJ.Paths.C41_gz_partial",
    "LJ.Paths.C41_false",
    "LJ.Paths.C41_not_utf8"
   ],
   "note": "Names are clean for all ordinary files; .gz is ignored when the name ends with a letter. C41_false: after a symbol or digit .gz matters."
  },
  {
   "property": "C42",
   "status": "proved",
   "theorems": [
    "LJ.Paths.C42_valid"
   ],
   "note": ""
  },
  {
   "property": "C43",
   "status": "partial",
   "theorems": [
    "LJ.Paths.C43_partial",
    "LJ.Paths.C43_false",
    "LJ.Paths.C43_never"
   ],
   "note": "The code compares the extension with \".gz\", which no extension equals: no local file is ever decompressed (C43_never), so the claim is false (C43_false). C43_partial is what holds: other files are read as they are."
  },
  {
   "property": "C44",
   "status": "partial",
   "theorems": [
    "LJ.Paths.C44_partial",
    "LJ.Paths.C44_false"
   ],
   "note": "Panics exactly when the URL comes from a listing and has fewer than 42 bytes."
  },
  {
   "property": "C45",
   "status": "partial",
   "theorems": [
    "LJ.Paths.C45_local",
    "LJ.Paths.C45_root",
    "LJ.Paths.C45_remote_partial",
    "LJ.Paths.C45_panic",
    "LJ.Paths.C45_false",
    "LJ.Remote.C45_listed_partial"
   ],
   "note": "All UTF-8 local names and all URLs below the listed one; panics otherwise are witnessed and characterised."
  },
  {
   "property": "C46",
   "status": "partial",
   "theorems": [
    "LJ.Paths.C46_partial",
    "LJ.Paths.C46_contents",
    "LJ.Paths.C46_false"
   ],
   "note": "Paths starting with http (httpd.log) are taken for URLs and panic."
  },
  {
   "property": "C47",
   "status": "proved",
   "theorems": [
    "LJ.Crawler.C47_complete",
    "LJ.Crawler.C47_schedules",
    "LJ.Crawler.C47_needs_join"
   ],
   "note": "For every site and every schedule; ThreadPool::join is modelled by its contract (no job queued or running). C47_needs_join: with a join which loads the two counters one after the other instead, a listing may be incomplete."
  },
  {
   "property": "C48",
   "status": "proved",
   "theorems": [
    "LJ.Crawler.C48_errors",
    "LJ.Crawler.C48_panic_once"
   ],
   "note": "For every site and schedule. C48_panic_once: the iterator yields a panic at most once."
  },
  {
   "property": "C49",
   "status": "proved",
   "theorems": [
    "LJ.Crawler.C49_terminates",
    "LJ.Crawler.C49_visits"
   ],
   "note": "Every schedule has the same number of transitions; no state is stuck."
  },
  {
   "property": "C50",
   "status": "partial",
   "theorems": [
    "LJ.Crawler.C50_partial",
    "LJ.Crawler.C50_panics_partial",
    "LJ.Crawler.C50_sound",
    "LJ.Crawler.C50_order",
    "LJ.Crawler.C50_ends",
    "LJ.Crawler.C50_always_ends",
    "LJ.Crawler.C48_panic_once",
    "LJ.Crawler.C50_false",
    "LJ.Crawler.C50_quiet"
   ],
   "note": "Two races lose messages (C50_false). What is yielded is always the beginning of what was sent, and everything is yielded when the workers are done before the last poll. C50_quiet: it never ends before a time when no worker runs and a later time when no job is queued. C50_sound: nothing else is yielded, under any schedule. C50_panics_partial: a panic is told exactly when there is one, if the consumer is not ended before the workers. C50_always_ends: every schedule ends, panics included."
  },
  {
   "property": "C51",
   "status": "partial",
   "theorems": [
    "LJ.Crawler.C51_partial",
    "LJ.Crawler.C51_false"
   ],
   "note": "False: links out of the starting directory are followed. Holds on sites that only link below."
  },
  {
   "property": "C52",
   "status": "partial",
   "theorems": [
    "LJ.Cache.C52_partial",
    "LJ.Cache.C52_url",
    "LJ.Cache.C52_no_answer",
    "LJ.Cache.C52_false"
   ],
   "note": "Every history, with crashes. head_url: the first answer is returned for ever. Cache::head_set called twice with different results accepts both and head keeps the positive one: C52_false."
  },
  {
   "property": "C53",
   "status": "proved",
   "theorems": [
    "LJ.Cache.C53_reader",
    "LJ.Cache.C53_cached"
   ],
   "note": "Every history around the reader, every read size, every behaviour of the network; assumes no SHA-256 collision among the URLs used and no disk error."
  },
  {
   "property": "C54",
   "status": "partial",
   "theorems": [
    "LJ.Cache.C54_partial",
    "LJ.Cache.C54_false",
    "LJ.Cache.C54_witness"
   ],
   "note": "Death of the process: the entry gives a prefix and then an error (C54_partial). A reader closed early, by its consumer or after a network error, is finished by its drop and served as complete: C54_false, for every such history."
  },
  {
   "property": "C55",
   "status": "proved",
   "theorems": [
    "LJ.Cache.C55_names",
    "LJ.Cache.C55_directories",
    "LJ.Cache.C55_refused",
    "LJ.Cache.C55_kept"
   ],
   "note": "assumes no SHA-256 collision among the URLs used"
  },
  {
   "property": "C56",
   "status": "partial",
   "theorems": [
    "LJ.Cache.C56_listing",
    "LJ.Cache.C56_added",
    "LJ.Cache.C56_partial",
    "LJ.Cache.C56_false",
    "LJ.Cache.C56_iter"
   ],
   "note": "Faithful in every history. A crash while a listing is written makes every later listing of the URL fail: C56_false, for all crash points."
  },
  {
   "property": "C57",
   "status": "proved",
   "theorems": [
    "LJ.Cache.C57_dropped",
    "LJ.Cache.C57_kept",
    "LJ.Cache.C57_uncached"
   ],
   "note": "the JSON decoder is a parameter"
  },
  {
   "property": "C58",
   "status": "proved",
   "theorems": [
    "LJ.Zuul.C58",
    "LJ.Zuul.C58_found",
    "LJ.Zuul.C58_none",
    "LJ.Zuul.C58_error"
   ],
   "note": "The choice among any list of builds, availabilities and date, with ties; the content of the best build is returned when it is for a change (see C60). Availability is a function of the URL during one discovery."
  },
  {
   "property": "C59",
   "status": "partial",
   "theorems": [
    "LJ.Zuul.C59_false",
    "LJ.Zuul.C59_partial"
   ],
   "note": "False: the same change is only penalised, it is returned when nothing else is eligible, or when the others are much older. Proved: it is returned only if every eligible build of another change is at least 390 days older."
  },
  {
   "property": "C60",
   "status": "partial",
   "theorems": [
    "LJ.Zuul.C60_false",
    "LJ.Zuul.C60_lookup_false",
    "LJ.Zuul.C60_partial",
    "LJ.Zuul.C60_lookup_partial",
    "LJ.Zuul.C60_changes",
    "LJ.Zuul.C60_lookup_ok"
   ],
   "note": "False: both panic on builds without a change (and the lookup on builds without a log or ref URL). Proved: exactly when they panic, and what the lookup returns otherwise."
  },
  {
   "property": "C61",
   "status": "proved",
   "theorems": [
    "LJ.Zuul.C61",
    "LJ.Zuul.C61_calendar",
    "LJ.Zuul.C61_monotone",
    "LJ.Zuul.C61_future",
    "LJ.Zuul.C61_bounds",
    "LJ.Zuul.C61_days_fit"
   ],
   "note": ""
  },
  {
   "property": "C62",
   "status": "partial",
   "theorems": [
    "LJ.Zuul.C62_recognised",
    "LJ.Zuul.C62_partial",
    "LJ.Zuul.C62_whitelabel_partial",
    "LJ.Zuul.C62_false",
    "LJ.Zuul.C62_whitelabel_false"
   ],
   "note": "Which URLs are recognised is proved for all of them. The API URL is right unless /t/ occurs earlier in the URL (a host named t is enough), or /build/ in the query or fragment; both exceptions are shown."
  },
  {
   "property": "C63",
   "status": "partial",
   "theorems": [
    "LJ.Zuul.C63_times",
    "LJ.Zuul.C63_partial",
    "LJ.Zuul.C63_exact",
    "LJ.Zuul.C63_error",
    "LJ.Zuul.C63_false"
   ],
   "note": "False above 2^24 seconds: the duration goes through f32. Proved: the whole build otherwise, times to the second for every date, exactly which durations survive, and the size of the error."
  },
  {
   "property": "C64",
   "status": "proved",
   "theorems": [
    "LJ.Zuul.C64",
    "LJ.Zuul.C64_error",
    "LJ.Zuul.C64_missing",
    "LJ.Zuul.C64_found",
    "LJ.Zuul.C64_unknown",
    "LJ.Zuul.C64_optional"
   ],
   "note": "On parsed JSON documents, in which fields may be repeated; which documents decode is C109."
  },
  {
   "property": "C65",
   "status": "partial",
   "theorems": [
    "LJ.Output.C65_partial",
    "LJ.Output.C65_blank_line",
    "LJ.Output.C65_pieces",
    "LJ.Output.C65_false",
    "LJ.Output.C65_release_partial",
    "LJ.Output.C65_debug",
    "LJ.Output.C65_file_partial"
   ],
   "note": "The full claim is false: numbers are recomputed from the number of the anomaly and the length of the context, so a blank line (skipped by the reader, but counted) shifts them (C65_blank_line), and a line cut in pieces underflows (C65_pieces: a panic in debug builds, 18446744073709551615 in release builds). Proved: exact page when the lines of each window have consecutive numbers (C65_partial), hence for every file without blank lines, backslashes and over-long lines, cut anywhere in reads (C65_file_partial); in all cases a release build shows all the texts in order and the right number for the anomalies (C65_release_partial); C65_debug says when debug builds panic."
  },
  {
   "property": "C66",
   "status": "partial",
   "theorems": [
    "LJ.Output.C66_partial",
    "LJ.Output.C66_line_zero",
    "LJ.Output.C66_false"
   ],
   "note": "The full claim is false: the live output numbers every context line one too low (C66_line_zero: line 1 is shown as line 0). C66_partial: the output is exactly that for all sources whose windows have consecutive numbers: right lines, order, separators and anomaly numbers, context numbers minus one."
  },
  {
   "property": "C67",
   "status": "partial",
   "theorems": [
    "LJ.Cli.C67_model",
    "LJ.Cli.C67_error",
    "LJ.Cli.C67_ambiguous",
    "LJ.Cli.C67_kept_partial",
    "LJ.Cli.C67_only",
    "LJ.Cli.C67_saved",
    "LJ.Cli.C67_history",
    "LJ.Cli.C67_train",
    "LJ.Cli.C67_train_error",
    "LJ.Cli.C67_false",
    "LJ.Cli.C67_next_fails",
    "LJ.Cli.C67_race"
   ],
   "note": "Which model is used, and the errors, are proved for all files, arguments and other processes. False: that existing files are kept; with LOGREDUCE_CACHE the raw report next to the report replaces a model of that name (C67_false), and a model created by another process between the test and the creation is replaced (C67_race). C67_kept_partial: all other files are kept."
  },
  {
   "property": "C68",
   "status": "proved",
   "theorems": [
    "LJ.Dataset.C68_verdict",
    "LJ.Dataset.C68_reason",
    "LJ.Dataset.C68_process",
    "LJ.Dataset.C68_panic",
    "LJ.Dataset.C68_datasets",
    "LJ.Dataset.C68_blank"
   ],
   "note": "The verdict, from the files to the anomalies of the processor of Verif/Process. It panics only on an unreadable directory entry."
  },
  {
   "property": "C69",
   "status": "proved",
   "theorems": [
    "LJ.Generate.C69_line",
    "LJ.Generate.C69_words",
    "LJ.Generate.C69_lines",
    "LJ.Generate.C69_read_back",
    "LJ.Generate.C69_python"
   ],
   "note": "For every random number generator which respects the ranges asked for."
  },
  {
   "property": "C70",
   "status": "proved",
   "theorems": [
    "LJ.Codec.C70_matrix",
    "LJ.Codec.C70_model",
    "LJ.Codec.C70_report",
    "LJ.Codec.C70_listing",
    "LJ.Codec.C70_injective",
    "LJ.Codec.C70_model_saved",
    "LJ.Codec.C70_report_saved",
    "LJ.Codec.C70_path",
    "LJ.Codec.C70_duration"
   ],
   "note": "bincode 1.3 of every saved type, all values, with any following bytes. C70_model_saved/C70_report_saved say exactly which values are saved: a local path which is not UTF-8 makes saving fail (C70_path). Compression, the URL parser and the date text are parameters or not modelled."
  },
  {
   "property": "C71",
   "status": "proved",
   "theorems": [
    "LJ.Tokenizer.C71_plain_word_kept",
    "LJ.Tokenizer.C71_numbers_irrelevant",
    "LJ.Tokenizer.C71_numbers_total"
   ],
   "note": ""
  },
  {
   "property": "C72",
   "status": "proved",
   "theorems": [
    "LJ.Process.C72_before"
   ],
   "note": ""
  },
  {
   "property": "C73",
   "status": "proved",
   "theorems": [
    "LJ.Process.C73_unrelated"
   ],
   "note": "Any arithmetic with the standard error bounds; the tokens of the line share no hashed word with the baselines."
  },
  {
   "property": "C74",
   "status": "partial",
   "theorems": [
    "LJ.Report.C74_partial",
    "LJ.Report.C74_index_partial",
    "LJ.Report.C74_false"
   ],
   "note": "Missing: groups mixing JSON and other sources, where the claim is false of the code (C74_false)."
  },
  {
   "property": "C75",
   "status": "proved",
   "theorems": [
    "LJ.Report.C75_train",
    "LJ.Report.C75_tokens"
   ],
   "note": "The is_json flag of the first source of a group is used for all (groupJson)."
  },
  {
   "property": "C76",
   "status": "proved",
   "theorems": [
    "LJ.Paths.C76_listing"
   ],
   "note": ""
  },
  {
   "property": "C77",
   "status": "proved",
   "theorems": [
    "LJ.Paths.C77_discover",
    "LJ.Paths.C77_found"
   ],
   "note": ""
  },
  {
   "property": "C78",
   "status": "proved",
   "theorems": [
    "LJ.Crawler.C78_links",
    "LJ.Crawler.C78_join"
   ],
   "note": " C78_join: no link is dropped; one that is not an URL makes the page an error."
  },
  {
   "property": "C79",
   "status": "partial",
   "theorems": [
    "LJ.Cache.C79_partial",
    "LJ.Cache.C79_false",
    "LJ.Cache.C79_witness"
   ],
   "note": "The status is never looked at: an error page is read and cached as the log, and lists as an empty directory. Only the absence of an answer is an error."
  },
  {
   "property": "C80",
   "status": "proved",
   "theorems": [
    "LJ.Codec.C80_truncated"
   ],
   "note": "every strict prefix of a saved matrix, model, report or listing is refused"
  },
  {
   "property": "C81",
   "status": "partial",
   "theorems": [
    "LJ.Output.C81_partial",
    "LJ.Output.C81_totals",
    "LJ.Output.C81_found",
    "LJ.Output.C81_error",
    "LJ.Output.C81_false"
   ],
   "note": "The full claim is false: a source which cannot be opened stops the loop, and the anomalies of the next sources are not shown (C81_false). C81_partial: every source up to and including the first such one is accounted for. C81_totals and C81_found: the exact output and totals when the sources can be opened."
  },
  {
   "property": "C82",
   "status": "proved",
   "theorems": [
    "LJ.Output.C82_range",
    "LJ.Output.C82_monotone",
    "LJ.Output.C82_distance",
    "LJ.Output.C82_colours"
   ],
   "note": "For any monotone rounding with the f32 error bounds; the distances are at most 1 whatever the rounding of the index."
  },
  {
   "property": "C83",
   "status": "proved",
   "theorems": [
    "LJ.Output.C83_items",
    "LJ.Output.C83_info",
    "LJ.Output.C83_made"
   ],
   "note": "The tree of nodes given to html_builder; its serialisation is not modelled. The page does not show the read errors nor the index errors of the report (a TODO in the code)."
  },
  {
   "property": "C84",
   "status": "proved",
   "theorems": [
    "LJ.Output.C84_live_has_report"
   ],
   "note": "For sources read to their end without error."
  },
  {
   "property": "C85",
   "status": "partial",
   "theorems": [
    "LJ.Cli.C85_partial",
    "LJ.Cli.C85_never_wrong",
    "LJ.Cli.C85_full",
    "LJ.Cli.C85_false",
    "LJ.Cli.codecFormat",
    "LJ.Cli.C85_load"
   ],
   "note": "False: the last bytes are written by the drop of the encoder, whose errors are lost (C85_false, C85_full). C85_partial: it can be loaded when the disk has room for the whole file; C85_never_wrong: it is never loaded as another model."
  },
  {
   "property": "C86",
   "status": "proved",
   "theorems": [
    "LJ.Cli.C86_crash",
    "LJ.Cli.codecFormat"
   ],
   "note": "Every crash point, for every format whose truncations are refused; the format of Verif/Codec is one."
  },
  {
   "property": "C87",
   "status": "proved",
   "theorems": [
    "LJ.Python.C87_search",
    "LJ.Python.C87_search_mat",
    "LJ.Python.C87_save",
    "LJ.Python.C87_saved",
    "LJ.Python.C87_load",
    "LJ.Python.C87_defined",
    "LJ.Python.C87_index",
    "LJ.Python.C87_false",
    "LJ.Python.isF32_iff",
    "LJ.Python.matOf_rawOf",
    "LJ.Python.C87_dimension"
   ],
   "note": "viaRows and viaMat are what index/search and index_mat/search_mat compute alone (C17 to C23). The values are kept as the 32 bits of f32; isF32_iff and matOf_rawOf relate the bits to the numbers of the model of the index. C87_false shows why the condition on programs is needed: both kinds of values are capsules of the same name and their type is not checked."
  },
  {
   "property": "C88",
   "status": "proved",
   "theorems": [
    "LJ.Whole.C88_tree",
    "LJ.Whole.C88_diff",
    "LJ.Whole.C88_quiet",
    "LJ.Whole.C88_found",
    "LJ.Whole.C88_texts"
   ],
   "note": "Composition of the models of the iterator, decoder, tokenizer, index, process and report. C88_texts: for all UTF-8 texts with blank lines, backslashes and an unterminated last line, when lines have less than 6000 bytes and no backslash is followed by n or a line return (PlainText). C88_diff: for UTF-8 files whose lines are not empty, shorter than 6000 bytes and without backslash (PlainLine), which are neither json nor rejected by is_valid; C88_tree for any text files with pieces shorter than 6000 bytes, with baselines for every index name of the target."
  },
  {
   "property": "C89",
   "status": "proved",
   "theorems": [
    "LJ.Cli.C89_status",
    "LJ.Cli.C89_page"
   ],
   "note": "Exact characterisation of the result; the training, discovery, report and rendering are arbitrary functions that can fail; the file system has denied paths, failing creations and a limit per path. A single process runs (interference is C67)."
  },
  {
   "property": "C90",
   "status": "proved",
   "theorems": [
    "LJ.Iterator.C90_local",
    "LJ.Iterator.C90_so_far",
    "LJ.Iterator.C90_before"
   ],
   "note": "For both builds (overflow checks on or off)."
  },
  {
   "property": "C91",
   "status": "partial",
   "theorems": [
    "LJ.Iterator.C91_partial",
    "LJ.Iterator.C91_exact",
    "LJ.Iterator.C91_order",
    "LJ.Iterator.C91_false"
   ],
   "note": "False: a line return after a backslash does not end the line (a shell command continued on the next line is enough), so the next line is merged with it and the numbers are too low from there on (C91_false). C91_exact: for every content the number misses exactly the line returns kept in the pieces before. C91_partial: right when no line return follows a backslash and the schedule has no overflow."
  },
  {
   "property": "C92",
   "status": "partial",
   "theorems": [
    "LJ.Iterator.C92_partial",
    "LJ.Iterator.C92_false",
    "LJ.Iterator.C92_bound",
    "LJ.Iterator.C92_work"
   ],
   "note": "False: skipped lines are nested calls (the functions call each other in tail position, which Rust does not promise to compile to jumps), so n blank lines nest n calls (C92_false). C92_partial: at most 12004 + 12005 K for every schedule when all lines are shorter than 6000 bytes and at most K blank lines follow each other. C92_bound: for every reader, long lines and failures included, at most 3 for each byte and result of the reader; C92_work: the same bound for all calls of next together. The size of a frame and what the optimiser does are not modelled."
  },
  {
   "property": "C93",
   "status": "proved",
   "theorems": [
    "LJ.Saved.C93_memory",
    "LJ.Saved.C93_saves",
    "LJ.Saved.C93_report",
    "LJ.Saved.C93_runs"
   ],
   "note": "The report is a function of the loaded matrices (Verif/Saved/Model); it is proved equal to the report of the model in Verif/Report. A model whose paths are not UTF-8 can't be saved (C70_path). Gzip is abstract: decoding a whole file gives the bytes, decoding a part gives a prefix."
  },
  {
   "property": "C94",
   "status": "partial",
   "theorems": [
    "LJ.Render.C94_partial",
    "LJ.Render.C94_same",
    "LJ.Render.C94_page",
    "LJ.Render.C94_made",
    "LJ.Render.C94_extension",
    "LJ.Render.C94_no_name",
    "LJ.Render.C94_twice",
    "LJ.Render.C94_html",
    "LJ.Render.C94_false"
   ],
   "note": "false of the code when the page is named x.json: the page takes the place of the raw report (C94_false). Proved for all other names: the raw report gives back the same page through the render program; the report kept in memory (64-bit numbers, bits of f32) has the page of the report of Report/; set_extension keeps directory and stem. Escaping by html_builder is not modelled."
  },
  {
   "property": "C95",
   "status": "partial",
   "theorems": [
    "LJ.Output.C95_partial",
    "LJ.Render.C95_report",
    "LJ.Render.C95_false"
   ],
   "note": "false of the code: a path with a quote ends its attribute (C95_false). Proved: exactly when no quote is in the names and locations shown, every attribute of the document is a single one. The strings are those given to attr(); what html_builder does with them is not modelled."
  },
  {
   "property": "C96",
   "status": "partial",
   "theorems": [
    "LJ.Output.C96_partial",
    "LJ.Output.C96_places",
    "LJ.Output.C96_dangling",
    "LJ.Render.C96_report",
    "LJ.Render.C96_false"
   ],
   "note": "false of the code: the model links of all reported files lead nowhere (C96_dangling, C96_report, C96_false), as no element has their id. Proved: these are the only ones, unless a location starts with #."
  },
  {
   "property": "C97",
   "status": "partial",
   "theorems": [
    "LJ.Program.C97_partial",
    "LJ.Program.C97_missing",
    "LJ.Program.C97_false"
   ],
   "note": "false of the code: journald and current-build are todo!() and panic (C97_missing, C97_false). All other commands end without a panic, when the inputs, the search, the page and the datasets do not panic."
  },
  {
   "property": "C98",
   "status": "partial",
   "theorems": [
    "LJ.Program.C98_partial",
    "LJ.Program.C98_local",
    "LJ.Program.C98_no_source",
    "LJ.Program.C98_false"
   ],
   "note": "false of the code: diff without a source trains an empty model, prints that there is no baseline for each file and succeeds (C98_no_source, C98_false). True for all other comparisons, when the discovery of baselines does not give an empty list (C98_local: so for local files)."
  },
  {
   "property": "C99",
   "status": "proved",
   "theorems": [
    "LJ.Program.C99_groups",
    "LJ.Program.C99_order"
   ],
   "note": ""
  }
 ]
}
