{"claims": [
{"property": "C01", "status": "proved", "theorems": ["Verif.Props.C01_map"], "note": "Insert/Delete histories of any length, generic width with proved 32/64-bit instances."},
{"property": "C02", "status": "proved", "theorems": ["Verif.Props.C02_longest_match", "Verif.Props.C02_answer_unique"], "note": ""},
{"property": "C03", "status": "proved", "theorems": ["Verif.Props.C03_delete_entries", "Verif.Props.C03_delete_flag", "Verif.Props.C03_delete_noop"], "note": ""},
{"property": "C04", "status": "proved", "theorems": ["Verif.Props.C04_enumerate_complete", "Verif.Props.C04_enumerate_sorted", "Verif.Props.C04_enumerate_nodup"], "note": ""},
{"property": "C05", "status": "proved", "theorems": ["Verif.Props.C05_history", "Verif.Props.C05_persistence"], "note": "Memory model of numtree; all histories over any number of live roots, in-place calls on exclusively held trees included."},
{"property": "C06", "status": "proved", "theorems": ["Verif.Props.C06_inplace", "Verif.Props.C05_history"], "note": "Memory model: no nil dereference, result observes as Insert's, other roots unchanged, writes confined to the tree's nodes and new nodes."},
{"property": "C07", "status": "proved", "theorems": ["Verif.Props.C07_clamp_low", "Verif.Props.C07_clamp_high", "Verif.Props.C07_low_bits_ignored", "Verif.Props.C07_low_bits_ignored_insert", "Verif.Props.C06_inplace"], "note": "The raw Key field of a stored node keeps the caller's insignificant bits; everything else is independent of them. C06_inplace covers clamping of InplaceInsert."},
{"property": "C08", "status": "proved", "theorems": ["Verif.Props.C08_economical", "Verif.Props.C08_size", "Verif.Props.C08_height", "Verif.Props.C08_visits", "Verif.Props.C08_memory"], "note": ""},
{"property": "C09", "status": "proved", "theorems": ["Verif.Props.C09_canonical", "Verif.Props.C09_memory"], "note": ""},
{"property": "C10", "status": "proved", "theorems": ["Verif.Props.C10_masks32", "Verif.Props.C10_masks64", "Verif.Props.C10_ncsb"], "note": ""},
{"property": "C100", "status": "proved", "theorems": ["Verif.Props.C100_strtree", "Verif.Props.C100_strtree_returns", "Verif.Props.C100_dltree", "Verif.Props.C100_dltree_returns", "Verif.Props.C100_domaintree", "Verif.Props.C100_domaintree_returns"], "note": "histories of calls that returned or panicked and were recovered from; the two halves are the answers of the carefully used trees and that further calls on them return"},
{"property": "C101", "status": "proved", "theorems": ["Verif.Props.C101_get", "Verif.Props.C101_enumerate", "Verif.Props.C101_limits"], "note": "histories without exclusivity, with recovered panics; C101_limits is the concrete history showing what does not hold"},
{"property": "C102", "status": "proved", "theorems": ["Verif.Props.C102_strtree", "Verif.Props.C102_dltree", "Verif.Props.C102_domaintree", "Verif.Props.C102_numtree", "Verif.Props.C102_iptree", "Verif.Props.C102_uiptree"], "note": "One theorem per tree. The part of a result that is a tree is not compared by address; the trees themselves are compared by what every call on them comes to."},
{"property": "C103", "status": "proved", "theorems": ["Verif.Props.C103_strtree", "Verif.Props.C103_dltree", "Verif.Props.C103_domaintree", "Verif.Props.C103_numtree", "Verif.Props.C103_iptree", "Verif.Props.C103_uiptree", "Verif.Props.C103_same_origin"], "note": "all six trees; goroutines on one memory with one allocator, answer-dependent jobs, recovered panics; C103_same_origin shows that the condition on origins is needed"},
{"property": "C104", "status": "proved", "theorems": ["Verif.Props.C104_numtree", "Verif.Props.C104_numtree_rule", "Verif.Props.C104_strtree", "Verif.Props.C104_strtree_rule", "Verif.Props.C104_dltree", "Verif.Props.C104_dltree_rule", "Verif.Props.C104_domaintree", "Verif.Props.C104_domaintree_rule", "Verif.Props.C104_iptree", "Verif.Props.C104_iptree_rule", "Verif.Props.C104_uiptree", "Verif.Props.C104_uiptree_rule", "Verif.Props.C104_needs_rule"], "note": "all six trees; answer-dependent goroutines with mailboxes on one memory with one allocator; the _rule theorems derive the condition from a rule each goroutine keeps by itself; C104_needs_rule shows that the rule is needed"},
{"property": "C105", "status": "proved", "theorems": ["Verif.Props.C105_rescued", "Verif.Props.C105_inplace_races"], "note": "UpdateDescendants with a panicking callback, its goroutines, the recover and any later script of the client, under all schedules; the race of an in-place insertion into the old tree is a second theorem"},
{"property": "C106", "status": "proved", "theorems": ["Verif.Props.C106_asking"], "note": ""},
{"property": "C107", "status": "proved", "theorems": ["Verif.Props.C107_numtree", "Verif.Props.C107_strtree", "Verif.Props.C107_dltree"], "note": "Dot on memory among goroutines as in C57; the lines are data as in C51."},
{"property": "C108", "status": "proved", "theorems": ["Verif.Props.C108_numtree", "Verif.Props.C108_strtree", "Verif.Props.C108_dltree"], "note": "Nodes read and lines written by Dot; the queue and the text are not counted."},
{"property": "C109", "status": "proved", "theorems": ["Verif.Props.C109_getLabel"], "note": "Every offset, also negative ones and those inside of labels."},
{"property": "C11", "status": "proved", "theorems": ["Verif.Props.C11_map"], "note": ""},
{"property": "C12", "status": "proved", "theorems": ["Verif.Props.C12_sorted", "Verif.Props.C12_complete", "Verif.Props.C12_nodup"], "note": ""},
{"property": "C13", "status": "proved", "theorems": ["Verif.Props.C13_history", "Verif.Props.C13_persistence"], "note": "On memory: legal histories of Insert, Delete and exclusive InplaceInsert over any number of live trees."},
{"property": "C14", "status": "proved", "theorems": ["Verif.Props.C14_inplace", "Verif.Props.C14_same_shape"], "note": "Exclusive = no other live tree comes from the same starting tree. A nil *Tree has no root field to write and is outside the claim (InplaceInsert on it panics)."},
{"property": "C15", "status": "proved", "theorems": ["Verif.Props.C15_memory", "Verif.Props.C15_red_black", "Verif.Props.C15_height"], "note": "Any comparison that calls each key equal to itself."},
{"property": "C16", "status": "proved", "theorems": ["Verif.Props.C16_flag", "Verif.Props.C16_rest", "Verif.Props.C16_absent", "Verif.Props.C16_memory"], "note": ""},
{"property": "C17", "status": "proved", "theorems": ["Verif.Props.C17_spelling", "Verif.Props.C17_inplace", "Verif.Props.C12_complete"], "note": ""},
{"property": "C18", "status": "proved", "theorems": ["Verif.Props.C18_no_panic", "Verif.Props.C15_memory"], "note": "Any comparison that calls each key equal to itself; a comparison that does not makes Insert loop forever."},
{"property": "C19", "status": "proved", "theorems": ["Verif.Props.C19_isEmpty", "Verif.Props.C19_nil"], "note": ""},
{"property": "C20", "status": "proved", "theorems": ["Verif.Props.C20_round_trip", "Verif.Props.C20_printable"], "note": "All byte strings up to 63 bytes."},
{"property": "C21", "status": "proved", "theorems": ["Verif.Props.C21_no_panic", "Verif.Props.C21_limits"], "note": "All byte strings."},
{"property": "C22", "status": "proved", "theorems": ["Verif.Props.C22_accepts", "Verif.Props.C22_labels", "Verif.Props.C22_unambiguous"], "note": "Acceptance iff the string is a rendering of valid tokens within the limits; decoding is unambiguous."},
{"property": "C23", "status": "proved", "theorems": ["Verif.Props.C23_case_insensitive"], "note": "Labels equal iff decoded labels equal up to ASCII case."},
{"property": "C24", "status": "proved", "theorems": ["Verif.Props.C24_getLabels", "Verif.Props.C24_walk"], "note": "Arbitrary stateful callback with errors; offset walk."},
{"property": "C25", "status": "partial", "theorems": ["Verif.Props.C25_false", "Verif.Props.C25_no_panic_partial", "Verif.Props.C25_truncated", "Verif.Props.C25_exact", "Verif.Props.C25_panics_iff"], "note": "False of the code: an upper-case letter at output position 252 indexes out of range (C25_false gives the witness). Proved: no panic for inputs without upper-case letters or of at most 63 bytes, output never exceeds 252 bytes; the result for every input and exactly which inputs panic (C25_exact, C25_panics_iff)."},
{"property": "C26", "status": "proved", "theorems": ["Verif.Props.C26_map", "Verif.Props.C26_delete_flag"], "note": "Histories mixing human-readable and raw calls."},
{"property": "C27", "status": "proved", "theorems": ["Verif.Props.C27_raw_sorted", "Verif.Props.C27_complete", "Verif.Props.C27_human", "Verif.Props.C27_balance"], "note": "Enumerate part for stored labels of legal length (at most 63 bytes); longer raw labels can panic, see C25."},
{"property": "C28", "status": "partial", "theorems": ["Verif.Props.C28_false", "Verif.Props.C28_confused", "Verif.Props.C28_panics", "Verif.Props.C28_other_labels_partial", "Verif.Props.C28_trichotomy", "Verif.Props.C28_exact"], "note": "False of the code: MakeLabel errors are ignored, so malformed keys act on the empty label, and a key with an inner dot panics. Proved: entries under all other labels are unaffected; histories with any keys panic exactly if a key has an inner dot and otherwise act on the labels the keys are filed under (C28_exact)."},
{"property": "C29", "status": "partial", "theorems": ["Verif.Props.C29_false", "Verif.Props.C29_closest_partial"], "note": "False of the code for the root domain: Get never returns a value stored for the root (C29_false). Closest enclosing non-root domain proved for all histories."},
{"property": "C30", "status": "partial", "theorems": ["Verif.Props.C30_delete_partial", "Verif.Props.C35_false"], "note": "Proved for names of up to 126 labels; a stored name of 127 labels panics (C35_false)."},
{"property": "C31", "status": "partial", "theorems": ["Verif.Props.C31_deleteSubdomains_partial", "Verif.Props.C35_false"], "note": "Proved for names of up to 126 labels; a stored name of 127 labels panics (C35_false)."},
{"property": "C32", "status": "proved", "theorems": ["Verif.Props.C32_enumerate", "Verif.Props.C32_same_listing"], "note": "Over all histories of Insert, InplaceInsert, Delete, DeleteSubdomains that do not panic."},
{"property": "C33", "status": "proved", "theorems": ["Verif.Props.C33_history", "Verif.Props.C33_persistence", "Verif.Props.C33_no_write", "Verif.Props.C33_stored", "Verif.Props.C35_panic_safe"], "note": "Pointer-level model of Node, dltree.Tree and dltree node cells; any number of live trees, copy-on-write and (on exclusively held trees) in-place calls. Calls that panic are not steps of the histories; C35_panic_safe shows exactly which they are and that they leave every held tree as it was."},
{"property": "C34", "status": "partial", "theorems": ["Verif.Props.C34_false", "Verif.Props.C34_panics_iff", "Verif.Props.C34_contents_partial", "Verif.Props.C34_no_panic_partial", "Verif.Props.C34_inplace_partial", "Verif.Props.C34_covered_partial"], "note": "False of the code: InplaceInsert panics below nodes created by Insert. Proved: exactly which calls panic (C34_panics_iff), equal contents for all others, and on the pointer-level model the other held trees are unchanged."},
{"property": "C35", "status": "partial", "theorems": ["Verif.Props.C35_false", "Verif.Props.C35_insert_get", "Verif.Props.C35_delete_partial", "Verif.Props.C35_history_partial", "Verif.Props.C35_panic_safe"], "note": "False of the code: Delete/DeleteSubdomains of a stored 127-label name index past an array. Exact panic condition proved, and on the pointer-level model a panicking call leaves every held tree unchanged."},
{"property": "C36", "status": "proved", "theorems": ["Verif.Props.C36_no_dead", "Verif.Props.C36_useful"], "note": ""},
{"property": "C37", "status": "proved", "theorems": ["Verif.Props.C37_longest_match"], "note": "Over any insert/delete history."},
{"property": "C38", "status": "proved", "theorems": ["Verif.Props.C38_delete"], "note": "Over any insert/delete history; the boolean and the resulting contents."},
{"property": "C39", "status": "proved", "theorems": ["Verif.Props.C39_enumerate_sound", "Verif.Props.C39_enumerate_sorted", "Verif.Props.C39_before_irrefl"], "note": "Listing = stored networks, each once, v4 first, ordered."},
{"property": "C40", "status": "proved", "theorems": ["Verif.Props.C40_malformed", "Verif.Props.C40_malformed_iff", "Verif.Props.C40_families"], "note": ""},
{"property": "C41", "status": "proved", "theorems": ["Verif.Props.C41_addr", "Verif.Props.C41_addr_iff", "Verif.Props.C41_other_length"], "note": ""},
{"property": "C42", "status": "proved", "theorems": ["Verif.Props.C42_inplace"], "note": "On memory: after any legal history, with every other held tree unchanged."},
{"property": "C43", "status": "partial", "theorems": ["Verif.Props.C43_update_partial", "Verif.Props.C43_absent_partial", "Verif.Props.C43_absent_either", "Verif.Props.C43_host_bits", "Verif.Props.C43_malformed", "Verif.Props.C43_lookup_after", "Verif.Props.C43_false", "Verif.Props.C43_nil_panics"], "note": "False as stated: an absent target of 64 bits or more with stored networks in both halves may be treated as stored (C43_false). Proved for stored targets and for absent targets outside that exception; within it either nothing happens or the update runs as for a stored target (C43_absent_either), depending on address bits beyond the prefix length (C43_host_bits). Sharing with older snapshots is C60, schedules are C64."},
{"property": "C44", "status": "proved", "theorems": ["Verif.Props.C44_no_panic", "Verif.Props.C44_no_panic_memory", "Verif.Props.C44_no_panic_update"], "note": "Functional model, pointer-level model with in-place calls, and functional model with UpdateDescendants among the calls."},
{"property": "C45", "status": "proved", "theorems": ["Verif.Props.C45_history", "Verif.Props.C45_persistence"], "note": "Pointer-level model; any number of live trees, copy-on-write and (on exclusively held trees) in-place calls."},
{"property": "C46", "status": "proved", "theorems": ["Verif.Props.C46_round_trip", "Verif.Props.C46_bits"], "note": ""},
{"property": "C47", "status": "proved", "theorems": ["Verif.Props.C47_longest_match", "Verif.Props.C47_history", "Verif.Props.C47_history_exact"], "note": ""},
{"property": "C48", "status": "partial", "theorems": ["Verif.Props.C48_false", "Verif.Props.C48_delete_partial", "Verif.Props.C48_ineffective"], "note": "False for IPv6 networks below 64 bits that are not stored (C48_false); proved in every other case, and the failing case is characterised."},
{"property": "C49", "status": "proved", "theorems": ["Verif.Props.C49_numtree", "Verif.Props.C49_strtree", "Verif.Props.C49_dltree_raw", "Verif.Props.C49_dltree", "Verif.Props.C49_domaintree", "Verif.Props.C49_iptree", "Verif.Props.C49_uiptree"], "note": "goroutines and unbuffered channels as a labelled transition system with all interleavings; dltree and domaintree assume a listing that does not panic"},
{"property": "C50", "status": "proved", "theorems": ["Verif.Props.C50_numtree_match", "Verif.Props.C50_numtree_exact", "Verif.Props.C50_numtree_enumerate", "Verif.Props.C50_strtree_get", "Verif.Props.C50_strtree_enumerate", "Verif.Props.C50_iptree_get", "Verif.Props.C50_iptree_enumerate", "Verif.Props.C50_domaintree_get", "Verif.Props.C50_domaintree_enumerate", "Verif.Props.C50_dltree_get", "Verif.Props.C50_dltree_enumerate", "Verif.Props.C50_uiptree_get", "Verif.Props.C50_uiptree_enumerate"], "note": "Every schedule of single memory accesses of one reader and one writer, after any legal history; numtree, strtree, iptree, domaintree, dltree and uintX/iptree."},
{"property": "C51", "status": "proved", "theorems": ["Verif.Props.C51_dot", "Verif.Props.C51_determines", "Verif.Props.C51_trees"], "note": "node and edge lines as data; text formatting not modelled"},
{"property": "C52", "status": "proved", "theorems": ["Verif.Props.C52_fullSplit", "Verif.Props.C52_names", "Verif.Props.C52_hasPrefix", "Verif.Props.C52_getRelName"], "note": "path/filepath modelled for Unix"},
{"property": "C53", "status": "proved", "theorems": ["Verif.Props.C53_listing"], "note": ""},
{"property": "C54", "status": "proved", "theorems": ["Verif.Props.C54_relative_names", "Verif.Props.C54_absolute"], "note": "path/filepath modelled for Unix; working directory is a parameter"},
{"property": "C55", "status": "proved", "theorems": ["Verif.Props.C55_select"], "note": "template data as nested maps"},
{"property": "C56", "status": "proved", "theorems": ["Verif.Props.C56_leak", "Verif.Props.C56_numtree", "Verif.Props.C56_strtree", "Verif.Props.C56_iptree", "Verif.Props.C56_uiptree", "Verif.Props.C56_dltree", "Verif.Props.C56_domaintree"], "note": "C56_leak: channels alone, all generators; C56_numtree etc.: caller, goroutines and the nodes in memory, after any history (dltree: RawEnumerate)."},
{"property": "C57", "status": "proved", "theorems": ["Verif.Props.C57_numtree", "Verif.Props.C57_strtree", "Verif.Props.C57_iptree", "Verif.Props.C57_domaintree", "Verif.Props.C57_dltree", "Verif.Props.C57_uiptree", "Verif.Props.C57_numtree_one_supply", "Verif.Props.C57_strtree_one_supply", "Verif.Props.C57_iptree_one_supply", "Verif.Props.C57_domaintree_one_supply", "Verif.Props.C57_dltree_one_supply", "Verif.Props.C57_uiptree_one_supply"], "note": "Proved for numtree, strtree, iptree, domaintree, dltree and uintX/iptree: any number of threads, any legal scripts, any schedule of whole-cell accesses under sequential consistency. New cells are named per thread in the first six theorems; the one_supply theorems have one memory with one supply of addresses."},
{"property": "C58", "status": "proved", "theorems": ["Verif.Props.C58_history", "Verif.Props.C58_persistence", "Verif.Props.C58_no_write", "Verif.Props.C58_inplace", "Verif.Props.C58_nil_panics"], "note": "Keys of Insert, Delete, Get and InplaceInsert are well-formed label texts (for the others see C28)."},
{"property": "C59", "status": "proved", "theorems": ["Verif.Props.C59_history", "Verif.Props.C59_as_iptree", "Verif.Props.C59_persistence", "Verif.Props.C59_inplace", "Verif.Props.C59_nil"], "note": "What a tree shows is stated with the deletions as these packages perform them (C48); C59_as_iptree gives plain last writes when no IPv6 network below 64 bits was deleted."},
{"property": "C60", "status": "proved", "theorems": ["Verif.Props.C60_history", "Verif.Props.C60_update", "Verif.Props.C60_shared", "Verif.Props.C60_goroutines", "Verif.Props.C60_nil_panics", "Verif.Props.C60_shared_changes"], "note": "Covered updates leave out the exception of C43 (C43_false). The callback returns; it does not touch the tree."},
{"property": "C61", "status": "proved", "theorems": ["Verif.Props.C61_numtree", "Verif.Props.C61_enumerate", "Verif.Props.C61_iptree", "Verif.Props.C61_uint"], "note": "access and allocation counts of the memory programs, for every tree of every legal history"},
{"property": "C62", "status": "proved", "theorems": ["Verif.Props.C62_strtree", "Verif.Props.C62_dltree", "Verif.Props.C62_domaintree"], "note": "bounds logarithmic in the number of listed entries; domaintree calls that panic (C34, C35) excluded"},
{"property": "C63", "status": "proved", "theorems": ["Verif.Props.C63_numtree", "Verif.Props.C63_strtree", "Verif.Props.C63_iptree", "Verif.Props.C63_uiptree", "Verif.Props.C63_dltree", "Verif.Props.C63_dltree_raw", "Verif.Props.C63_domaintree", "Verif.Props.C63_inplace_race"], "note": "Caller and goroutines as a transition system on shared memory (Verif/Pipe); scripts with nested loops unroll to straight-line steps. For strtree, dltree and domaintree the model's bounds on recursion and rounds are existentially large enough."},
{"property": "C64", "status": "proved", "theorems": ["Verif.Props.C64_update", "Verif.Props.C64_schedules"], "note": "caller and goroutines with channels on shared memory; sequential consistency"},
{"property": "C65", "status": "proved", "theorems": ["Verif.Props.C65_numtree", "Verif.Props.C65_strtree", "Verif.Props.C65_iptree", "Verif.Props.C65_uiptree", "Verif.Props.C65_domaintree", "Verif.Props.C65_dltree_raw", "Verif.Props.C65_dltree", "Verif.Props.C65_inplace_race"], "note": "Any number of client goroutines with scripts as in C63 (for strtree, dltree and domaintree finitely many, with a common bound on recursion). C65_inplace_race shows why in-place changes of shared trees are excluded."},
{"property": "C66", "status": "proved", "theorems": ["Verif.Props.C66_accepts", "Verif.Props.C66_panics", "Verif.Props.C66_errors"], "note": "Exact for every byte string."},
{"property": "C67", "status": "proved", "theorems": ["Verif.Props.C67_errors", "Verif.Props.C67_one_defect"], "note": "Exact for every byte string."},
{"property": "C68", "status": "proved", "theorems": ["Verif.Props.C68_name", "Verif.Props.C68_string", "Verif.Props.C68_others"], "note": "reflect.Value is modelled by the cases the function tells apart."},
{"property": "C69", "status": "proved", "theorems": ["Verif.Props.C69_changes", "Verif.Props.C69_done", "Verif.Props.C69_succeeds", "Verif.Props.C69_inside_never_ends"], "note": "whole runs of etc; yaml and text/template are arbitrary functions; results are assumed to go outside the catalog, and C69_inside_never_ends shows that this is needed"},
{"property": "C70", "status": "proved", "theorems": ["Verif.Props.C70_nothing_written", "Verif.Props.C70_data_required"], "note": "the flag -d is not marked as required in the help text, but load always opens it"},
{"property": "C71", "status": "proved", "theorems": ["Verif.Props.C71_numtree", "Verif.Props.C71_redblack", "Verif.Props.C71_uint", "Verif.Props.C71_nil", "Verif.Props.C71_strconv"], "note": "for every quoting with form and injectivity (Quotes); strconv.Quote is one (C71_strconv)"},
{"property": "C72", "status": "partial", "theorems": ["Verif.Props.C72_numtree", "Verif.Props.C72_uint", "Verif.Props.C72_redblack_partial", "Verif.Props.C72_ambiguous", "Verif.Props.C72_ambiguous_dltree"], "note": "Proved for numtree and uintX; for strtree/dltree under Plain values, false in general (witness: key nil with value nil against the empty tree)."},
{"property": "C73", "status": "proved", "theorems": ["Verif.Props.C73_balanced", "Verif.Props.C73_returns", "Verif.Props.C73_forever", "Verif.Props.C73_iterations", "Verif.Props.C73_get", "Verif.Props.C73_added", "Verif.Props.C73_replaced", "Verif.Props.C73_delete"], "note": "no assumption on the comparison; divergence is stated for the loop iteration by iteration"},
{"property": "C74", "status": "partial", "theorems": ["Verif.Props.C74_numtree_partial", "Verif.Props.C74_numtree_exact", "Verif.Props.C74_numtree_false", "Verif.Props.C74_iptree_partial", "Verif.Props.C74_iptree_malformed", "Verif.Props.C74_iptree_false", "Verif.Props.C74_strtree", "Verif.Props.C74_dltree_raw", "Verif.Props.C74_dltree", "Verif.Props.C74_domaintree", "Verif.Props.C74_uint"], "note": "True of strtree, dltree, domaintree, the generated trees and numtree ExactMatch. False of numtree Match and iptree GetByNet/GetByIP on trees without networks of the family (C74_numtree_false, C74_iptree_false): they return a nil pointer to a node inside an interface. C74_numtree_partial and C74_iptree_partial give every result exactly."},
{"property": "C75", "status": "proved", "theorems": ["Verif.Props.C75_crash_iff", "Verif.Props.C75_received", "Verif.Props.C75_short_safe", "Verif.Props.C75_same_key"], "note": "The goroutine's sends are modelled as the list it sends up to its end or its panic."},
{"property": "C76", "status": "proved", "theorems": ["Verif.Props.C76_iptree_enumerate", "Verif.Props.C76_uint_enumerate", "Verif.Props.C76_iptree_update"], "note": "Keys as slices of arrays beside a client that may change what it received; the node lists the loops range over come from the functional model (channels: C49)."},
{"property": "C77", "status": "proved", "theorems": ["Verif.Props.C77_history", "Verif.Props.C77_inplace", "Verif.Props.C77_origins", "Verif.Props.C77_strtree_loses_key"], "note": "Histories with no exclusivity condition. Insertions in place spread to other numtrees of the same origin as the same insertion or not at all; in strtree another tree can lose a key (concrete history)."},
{"property": "C78", "status": "proved", "theorems": ["Verif.Props.C78_numtree", "Verif.Props.C78_strtree", "Verif.Props.C78_dltree", "Verif.Props.C78_iptree", "Verif.Props.C78_uintx_iptree", "Verif.Props.C78_domaintree"], "note": "after every legal history each held tree reaches a bounded number of cells in terms of its own listing, and every value it keeps alive is listed or nil"},
{"property": "C79", "status": "proved", "theorems": ["Verif.Props.C79_numtree", "Verif.Props.C79_numtree_copy", "Verif.Props.C79_strtree", "Verif.Props.C79_dltree_raw", "Verif.Props.C79_dltree", "Verif.Props.C79_iptree", "Verif.Props.C79_uintx_iptree", "Verif.Props.C79_domaintree"], "note": "Loop of Insert over the listing of another tree, any order; dltree text form needs upper-case labels of at most 63 bytes (witness example that the case condition is needed)"},
{"property": "C80", "status": "proved", "theorems": ["Verif.Props.C80_entries", "Verif.Props.C80_entries_unique", "Verif.Props.C80_node", "Verif.Props.C80_find", "Verif.Props.C80_children_nil", "Verif.Props.C80_history", "Verif.Props.C80_goroutines"], "note": "numtree (both key sizes): functional chains of calls, histories on memory with any number of roots and nodes, goroutines"},
{"property": "C81", "status": "proved", "theorems": ["Verif.Props.C81_numtree", "Verif.Props.C81_strtree", "Verif.Props.C81_iptree", "Verif.Props.C81_uiptree", "Verif.Props.C81_domaintree", "Verif.Props.C81_dltree"], "note": "one theorem per package over the memory models; the lock and the variable are those of the client"},
{"property": "C82", "status": "proved", "theorems": ["Verif.Props.C82_numtree", "Verif.Props.C82_strtree", "Verif.Props.C82_iptree", "Verif.Props.C82_uiptree", "Verif.Props.C82_domaintree", "Verif.Props.C82_dltree"], "note": "one theorem per package over the memory models; the lock and the variable are those of the client"},
{"property": "C83", "status": "proved", "theorems": ["Verif.Props.C83_numtree", "Verif.Props.C83_strtree", "Verif.Props.C83_iptree", "Verif.Props.C83_uiptree", "Verif.Props.C83_domaintree", "Verif.Props.C83_dltree", "Verif.Props.C83_strtree_panic", "Verif.Props.C83_inplace_loses"], "note": "Calls cut off after any number of memory accesses, all packages; strtree with a comparison function that panics, clients that recover; witness that a tree on which InplaceInsert panicked can have lost entries."},
{"property": "C84", "status": "proved", "theorems": ["Verif.Props.C84_numtree_map", "Verif.Props.C84_numtree_flag", "Verif.Props.C84_numtree_noop", "Verif.Props.C84_numtree_history", "Verif.Props.C84_strtree"], "note": "Zero numtree nodes (functional model and memory); strtree with a nil comparison function."},
{"property": "C85", "status": "proved", "theorems": ["Verif.Props.C85_update", "Verif.Props.C85_history", "Verif.Props.C85_quiet"], "note": "Callback panics in UpdateDescendants; histories of clients that recover."},
{"property": "C86", "status": "proved", "theorems": ["Verif.Props.C86_agree", "Verif.Props.C86_flags"], "note": "Agreement of iptree and the generated trees with the exact condition; the disagreement for hollow networks is C48."},
{"property": "C87", "status": "proved", "theorems": ["Verif.Props.C87_numtree", "Verif.Props.C87_strtree", "Verif.Props.C87_iptree", "Verif.Props.C87_uiptree", "Verif.Props.C87_domaintree", "Verif.Props.C87_dltree", "Verif.Props.C87_strtree_needs_lock", "Verif.Props.C87_dltree_needs_lock", "Verif.Props.C87_domaintree_needs_lock"], "note": "generic guard_sound over the heap models; examples: lost update across sections, counters within one section; the needs_lock theorems are schedules in which an unlocked Get misses a stored key"},
{"property": "C88", "status": "proved", "theorems": ["Verif.Props.C88_numtree_variable", "Verif.Props.C88_numtree_lock", "Verif.Props.C88_strtree_variable", "Verif.Props.C88_strtree_lock", "Verif.Props.C88_iptree_variable", "Verif.Props.C88_iptree_lock", "Verif.Props.C88_uiptree_variable", "Verif.Props.C88_uiptree_lock", "Verif.Props.C88_domaintree_variable", "Verif.Props.C88_domaintree_lock", "Verif.Props.C88_dltree_variable", "Verif.Props.C88_dltree_lock"], "note": "fair termination for both machines; example of an unfair schedule that does not end"},
{"property": "C89", "status": "proved", "theorems": ["Verif.Props.C89_numtree", "Verif.Props.C89_strtree", "Verif.Props.C89_iptree", "Verif.Props.C89_uiptree", "Verif.Props.C89_domaintree", "Verif.Props.C89_dltree_raw", "Verif.Props.C89_dltree", "Verif.Props.C89_inplace_race"], "note": "Loops that may be left, on memory, in all interleavings; the last theorem shows the race that the restriction excludes."},
{"property": "C90", "status": "proved", "theorems": ["Verif.Props.C90_numtree", "Verif.Props.C90_strtree", "Verif.Props.C90_strtree_ends", "Verif.Props.C90_iptree", "Verif.Props.C90_uiptree", "Verif.Props.C90_domaintree", "Verif.Props.C90_domaintree_ends", "Verif.Props.C90_dltree_raw", "Verif.Props.C90_dltree_raw_ends", "Verif.Props.C90_dltree", "Verif.Props.C90_dltree_ends", "Verif.Props.C90_inplace_race"], "note": "Every interleaving of goroutines sharing a variable and lock, with Enumerate called by any of them; right listings, no races, no failures, the end is reached. Channels are received from by the goroutine that opened them; with the lock, Enumerate is for settled trees (C90_inplace_race shows why)."},
{"property": "C91", "status": "proved", "theorems": ["Verif.Props.C91_numtree", "Verif.Props.C91_strtree", "Verif.Props.C91_strtree_ends", "Verif.Props.C91_iptree", "Verif.Props.C91_uiptree", "Verif.Props.C91_domaintree", "Verif.Props.C91_domaintree_ends", "Verif.Props.C91_dltree_raw", "Verif.Props.C91_dltree_raw_ends", "Verif.Props.C91_dltree", "Verif.Props.C91_dltree_ends", "Verif.Props.C91_leaving_race", "Verif.Props.C91_mixed_listing"], "note": "All programs that keep to the lock and run their loops to the end; witnesses that both are needed."},
{"property": "C92", "status": "proved", "theorems": ["Verif.Props.C92_numtree", "Verif.Props.C92_strtree", "Verif.Props.C92_iptree", "Verif.Props.C92_uiptree", "Verif.Props.C92_domaintree", "Verif.Props.C92_dltree"], "note": "flags of deletions, heap models of all six trees"},
{"property": "C93", "status": "proved", "theorems": ["Verif.Props.C93_numtree", "Verif.Props.C93_strtree", "Verif.Props.C93_iptree", "Verif.Props.C93_uiptree", "Verif.Props.C93_domaintree", "Verif.Props.C93_dltree"], "note": "flags of deletions, heap models of all six trees"},
{"property": "C94", "status": "proved", "theorems": ["Verif.Props.C94_numtree", "Verif.Props.C94_strtree", "Verif.Props.C94_iptree", "Verif.Props.C94_uiptree", "Verif.Props.C94_domaintree", "Verif.Props.C94_dltree"], "note": "flags of deletions, heap models of all six trees"},
{"property": "C95", "status": "proved", "theorems": ["Verif.Props.C95_numtree", "Verif.Props.C95_strtree", "Verif.Props.C95_iptree", "Verif.Props.C95_uiptree", "Verif.Props.C95_domaintree", "Verif.Props.C95_dltree", "Verif.Props.C95_domaintree_sub"], "note": "flags of deletions, heap models of all six trees"},
{"property": "C96", "status": "proved", "theorems": ["Verif.Props.C96_variable", "Verif.Props.C96_lock", "Verif.Props.C96_variable_ends", "Verif.Props.C96_lock_ends", "Verif.Props.C96_ranging", "Verif.Props.C96_locked"], "note": "iptree with UpdateDescendants in the settings of C81, C87, C88, C90, C91"},
{"property": "C97", "status": "proved", "theorems": ["Verif.Props.C97_history", "Verif.Props.C97_inplace", "Verif.Props.C97_dltree_loses_label", "Verif.Props.C97_domaintree_loses_names"], "note": "iptree: no exclusivity condition on in-place calls; dltree, domaintree: concrete witnesses that the limit does not hold there"},
{"property": "C98", "status": "proved", "theorems": ["Verif.Props.C98_history", "Verif.Props.C98_inplace"], "note": "all histories on the memory model of the generated IP trees, in-place calls on any held tree; trees started with NewTree"},
{"property": "C99", "status": "proved", "theorems": ["Verif.Props.C99_get", "Verif.Props.C99_enumerate", "Verif.Props.C99_dltree_get", "Verif.Props.C99_dltree_enumerate", "Verif.Props.C99_insert_panics", "Verif.Props.C99_inplace_panics", "Verif.Props.C99_never_returns", "Verif.Props.C99_dltree_panics", "Verif.Props.C99_domaintree_panics"], "note": "the get and enumerate theorems are the limits of the damage, the others are witnesses of what goes wrong"}
]}
