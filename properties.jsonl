{"id": "C01", "title": "numtree behaves as a map keyed by significant bits", "statement": "After any sequence of Insert and Delete calls on a numtree (32 or 64 bit), ExactMatch(key,bits) returns (v,true) exactly when the most recent Insert whose significant bits equal those of (key,bits) stored v and no later Delete covered it, and (nil,false) otherwise.", "quantifier": "all histories of Insert/Delete, all keys, all bit counts, all values, both key widths", "why_tests_cant": "the key space has 2^32 or 2^64 points per length and tree shapes depend on the whole history", "anchors": ["numtree/node32.go:Insert,insert,Delete,del,ExactMatch,FindNode,exactMatch", "numtree/node64.go:Insert,insert,Delete,del,ExactMatch,FindNode,exactMatch"]}
{"id": "C02", "title": "numtree Match is longest-prefix match", "statement": "Match(key,bits) returns the value stored under the longest stored prefix that is equal to or contains (key,bits), and reports not-found exactly when no stored prefix contains it.", "quantifier": "all trees reachable by Insert/InplaceInsert/Delete, all query keys and bit counts", "why_tests_cant": "requires the result to be maximal over every stored prefix, for every query", "anchors": ["numtree/node32.go:Match,match", "numtree/node64.go:Match,match"]}
{"id": "C03", "title": "numtree Delete removes exactly the contained entries", "statement": "Delete(key,bits) yields a tree whose entries are exactly the old entries not contained in (key,bits); the flag is true iff at least one entry was removed; all other entries keep their values.", "quantifier": "all reachable trees, all keys and bit counts", "why_tests_cant": "needs absence of collateral loss for every remaining entry of every tree", "anchors": ["numtree/node32.go:Delete,del", "numtree/node64.go:Delete,del"]}
{"id": "C04", "title": "numtree Enumerate is complete, duplicate-free and ordered", "statement": "Enumerate sends each stored entry exactly once, nothing else, in ascending order of the masked key with the shorter prefix first among equal keys.", "quantifier": "all reachable trees", "why_tests_cant": "order and completeness over unboundedly many shapes", "anchors": ["numtree/node32.go:Enumerate,enumerate", "numtree/node64.go:Enumerate,enumerate"]}
{"id": "C05", "title": "numtree copy-on-write persistence", "statement": "Insert and Delete never change anything observable through any root obtained earlier: in every history that keeps any number of roots alive and derives new ones from any of them, each root keeps answering ExactMatch, Match and Enumerate as when it was created.", "quantifier": "all histories over any number of live roots, at the level of heap writes", "why_tests_cant": "aliasing between versions depends on the whole history; a test sees only the versions it kept", "anchors": ["numtree/node32.go:insert,del", "numtree/node64.go:insert,del"]}
{"id": "C06", "title": "numtree InplaceInsert is Insert with mutation", "statement": "On a tree with exclusive access InplaceInsert(key,bits,v) leaves the tree observably equal to the result of Insert(key,bits,v), returns a valid root, never dereferences nil, and writes only to nodes of that tree or new nodes, so trees sharing no node with it are unaffected.", "quantifier": "all heaps and trees, all keys, bits and values", "why_tests_cant": "pointer-level claim over every tree shape and every other live tree", "anchors": ["numtree/node32.go:InplaceInsert,inplaceInsert", "numtree/node64.go:InplaceInsert,inplaceInsert"]}
{"id": "C07", "title": "numtree bit-count clamping and ignored low bits", "statement": "Every operation treats a bits argument below 0 as 0 and above the width as the width, and its result does not depend on the key bits after the first `bits` ones.", "quantifier": "all int bit counts, all keys, all operations", "why_tests_cant": "quantifies over all integers and all insignificant bit patterns", "anchors": ["numtree/node32.go:Insert,InplaceInsert,Match,FindNode,Delete", "numtree/node64.go:Insert,InplaceInsert,Match,FindNode,Delete"]}
{"id": "C08", "title": "numtree structural economy", "statement": "In every reachable tree each node without data has two children, every child extends its parent's prefix by the branch bit, the node count is below twice the entry count, and every root-to-leaf path has at most width+1 nodes, so lookups visit at most bits+1 nodes.", "quantifier": "all reachable trees", "why_tests_cant": "invariant over unbounded histories", "anchors": ["numtree/node32.go:insert,del,inplaceInsert", "numtree/node64.go:insert,del,inplaceInsert"]}
{"id": "C09", "title": "numtree shape is independent of the operation order", "statement": "Two reachable numtrees that hold the same entries have the same shape (same nodes, bit counts, leaf flags, values and masked keys), whatever Insert/InplaceInsert/Delete history built them.", "quantifier": "all pairs of histories reaching the same contents", "why_tests_cant": "pairs of unbounded histories", "anchors": ["numtree/node32.go:insert,del", "numtree/node64.go:insert,del"]}
{"id": "C10", "title": "mask tables and common-prefix computation are right", "statement": "For every pair of keys and bit counts the leading-zero computation over the mask tables used by Insert equals the length of the longest common prefix of the two significant-bit strings, and masks32/masks64 contain for each index i the word with exactly the i most significant bits set.", "quantifier": "all 32/64-bit keys and all bit counts", "why_tests_cant": "2^128 argument combinations", "anchors": ["numtree/node32.go:masks32,insert", "numtree/node64.go:masks64,insert"]}
{"id": "C11", "title": "strtree behaves as an ordered map", "statement": "For any comparison that is a total (pre)order, after any history of Insert and Delete, Get(k) returns the value of the latest Insert with a key equal under the comparison and not deleted since, and not-found otherwise.", "quantifier": "all histories, all total comparisons, all keys and values", "why_tests_cant": "red-black rebalancing depends on the whole history", "anchors": ["strtree/node.go:insert,del,get", "strtree/strtree.go:Insert,Get,Delete", "uintX/strtree8/node.go"]}
{"id": "C12", "title": "strtree Enumerate is sorted, complete and duplicate-free", "statement": "Enumerate sends every stored pair exactly once in strictly increasing key order.", "quantifier": "all reachable trees and total comparisons", "why_tests_cant": "unbounded shapes", "anchors": ["strtree/node.go:enumerate", "strtree/strtree.go:Enumerate"]}
{"id": "C13", "title": "strtree copy-on-write persistence", "statement": "Insert and Delete return new trees and never change what any previously obtained tree reports, in every history over any number of live versions.", "quantifier": "all histories over any number of live trees, at the level of heap writes", "why_tests_cant": "aliasing over unbounded histories", "anchors": ["strtree/node.go:insert,del,fullCopy,colorCopy,single,double"]}
{"id": "C14", "title": "strtree InplaceInsert equals Insert", "statement": "On an exclusively owned tree InplaceInsert leaves the same contents as Insert would return, never dereferences nil, and writes only to that tree's nodes and new nodes.", "quantifier": "all heaps, trees, keys, values", "why_tests_cant": "pointer-level claim over all shapes", "anchors": ["strtree/node.go:inplaceInsert", "strtree/strtree.go:InplaceInsert"]}
{"id": "C15", "title": "strtree stays balanced", "statement": "Every tree reachable by Insert, InplaceInsert and Delete is a red-black tree: black root, no red node with a red child, equal black counts on all paths; hence its height is at most 2*log2(n+1) for n entries.", "quantifier": "all reachable trees", "why_tests_cant": "invariant over unbounded histories", "anchors": ["strtree/node.go:insert,inplaceInsert,del,single,double"]}
{"id": "C16", "title": "strtree Delete flag and absent keys", "statement": "Delete(k) returns true iff k was present; if absent, the returned tree holds exactly the same pairs; if present, exactly that pair is gone.", "quantifier": "all reachable trees and keys", "why_tests_cant": "deletion restructures the tree even for absent keys", "anchors": ["strtree/node.go:del", "strtree/strtree.go:Delete"]}
{"id": "C17", "title": "strtree keeps the first spelling of an equal key", "statement": "When Insert or InplaceInsert is called with a key the comparison deems equal to a stored one, the value is replaced and the stored spelling of the key is kept.", "quantifier": "all trees and comparisons", "why_tests_cant": "over all custom comparisons and shapes", "anchors": ["strtree/node.go:insert,inplaceInsert"]}
{"id": "C18", "title": "strtree operations terminate without nil dereference", "statement": "Insert, InplaceInsert, Get, Enumerate and Delete on any reachable tree terminate and never dereference a nil node (in particular the rotations' grandparent is never nil).", "quantifier": "all reachable trees, all keys, all total comparisons", "why_tests_cant": "needs a colour invariant at every loop iteration", "anchors": ["strtree/node.go:insert,inplaceInsert,del"]}
{"id": "C19", "title": "strtree empty and nil trees", "statement": "IsEmpty is true exactly when Enumerate yields nothing; operations on a nil tree behave as on an empty tree ordered by strings.Compare.", "quantifier": "all reachable trees and nil", "why_tests_cant": "over all histories", "anchors": ["strtree/strtree.go:IsEmpty,Insert,Get,Delete,Enumerate"]}
{"id": "C20", "title": "label round trip", "statement": "For every label of at most 63 bytes, MakeLabel(MakeHumanReadableLabel(l)) succeeds and returns l with ASCII lower case letters upper-cased; the human-readable text is printable ASCII with no unescaped dot.", "quantifier": "all byte strings up to 63 bytes", "why_tests_cant": "256^63 labels", "anchors": ["domain/label.go:MakeLabel,getLabel,MakeHumanReadableLabel"]}
{"id": "C21", "title": "MakeNameFromString never panics and respects the limits", "statement": "MakeNameFromString returns for every string; on success the name has at most 127 labels, each of 1..63 bytes, and at most 255 bytes in total including length bytes.", "quantifier": "all byte strings", "why_tests_cant": "infinite input space; the panic in the label parser must be unreachable", "anchors": ["domain/name.go:MakeNameFromString", "domain/label.go:markLabels,getLabel"]}
{"id": "C22", "title": "MakeNameFromString decodes exactly the escaped-label grammar", "statement": "A string is accepted iff it is empty, a single dot, or a dot-separated list (with optional trailing dot) of non-empty labels in which every character is plain, backslash-escaped non-digit, or backslash plus three digits up to 255, within the size limits; the labels obtained are the decoded upper-cased ones in the same order as GetLabels reports reversed.", "quantifier": "all byte strings", "why_tests_cant": "infinite input space", "anchors": ["domain/name.go:MakeNameFromString", "domain/label.go:markLabels,getLabel"]}
{"id": "C23", "title": "domain names compare case- and escape-insensitively", "statement": "Two accepted strings whose decoded labels are equal up to ASCII case give names with identical labels; if decoded labels differ beyond case, the labels differ.", "quantifier": "all pairs of accepted strings", "why_tests_cant": "pairs of unbounded strings", "anchors": ["domain/name.go:MakeNameFromString", "domain/label.go:getLabel"]}
{"id": "C24", "title": "GetLabels and GetLabel agree", "statement": "For every parsed name GetLabels visits all labels once from the top-level one, stops at the first callback error and returns it; walking GetLabel from offset 0 until offset 0 is returned gives the same sequence and never -1 (for the root name, which has no labels, GetLabel(0) gives the empty label and offset 0).", "quantifier": "all parsed names, all callbacks", "why_tests_cant": "all names", "anchors": ["domain/name.go:GetLabel,GetLabels"]}
{"id": "C25", "title": "MakeHumanReadableLabel on over-long input", "statement": "MakeHumanReadableLabel never panics, whatever the input length; over-long input is truncated to at most 252 bytes.", "quantifier": "all byte strings", "why_tests_cant": "boundary combinations of escape widths at the buffer end", "anchors": ["domain/label.go:MakeHumanReadableLabel"]}
{"id": "C26", "title": "dltree behaves as a case-insensitive label map", "statement": "After any history of Insert/Delete with valid labels, Get(l) returns the latest value inserted under a label equal to l after decoding and upper-casing; RawInsert/RawGet/RawDelete do the same on binary labels.", "quantifier": "all histories and valid labels", "why_tests_cant": "unbounded histories", "anchors": ["dltree/dltree.go", "dltree/node.go", "uintX/domaintree8/dltree.go"]}
{"id": "C27", "title": "dltree order and balance", "statement": "RawEnumerate lists binary labels once each ordered by length and then bytewise; Enumerate lists their human-readable forms in the same order; the tree stays red-black balanced.", "quantifier": "all reachable trees", "why_tests_cant": "unbounded histories", "anchors": ["dltree/node.go:enumerate,rawEnumerate,insert,del"]}
{"id": "C28", "title": "dltree rejects malformed labels", "statement": "A key that MakeLabel rejects does not affect, match or remove entries stored under other keys.", "quantifier": "all trees and all malformed labels", "why_tests_cant": "error paths over all inputs", "anchors": ["dltree/dltree.go:Insert,InplaceInsert,Get,Delete"]}
{"id": "C29", "title": "domaintree Get is closest-enclosing-domain lookup", "statement": "After any history of Insert/Delete/DeleteSubdomains, Get(d) returns the value of the longest stored domain that equals d or of which d is a subdomain, and not-found iff there is none.", "quantifier": "all histories, all names", "why_tests_cant": "unbounded histories and name depth", "anchors": ["domaintree/domaintree.go:Insert,Get"]}
{"id": "C30", "title": "domaintree Delete removes exactly one domain", "statement": "Delete(d) returns true iff d itself has a value; the result holds all other entries unchanged.", "quantifier": "all reachable trees, all names", "why_tests_cant": "all trees and depths up to the label limit", "anchors": ["domaintree/domaintree.go:Delete,getBranch,copyBranch"]}
{"id": "C31", "title": "domaintree DeleteSubdomains removes exactly the subtree", "statement": "DeleteSubdomains(d) returns true iff some stored domain equals d or is a subdomain of d, and the result holds exactly the other entries.", "quantifier": "all reachable trees, all names", "why_tests_cant": "all trees and depths up to the label limit", "anchors": ["domaintree/domaintree.go:DeleteSubdomains,getBranch,copyBranch"]}
{"id": "C32", "title": "domaintree Enumerate lists every entry once with a re-parsable key", "statement": "Enumerate yields each stored domain exactly once with its value, and parsing the yielded key gives back the stored name.", "quantifier": "all reachable trees", "why_tests_cant": "unbounded trees, all label bytes", "anchors": ["domaintree/domaintree.go:Enumerate,enumerate", "domain/label.go:MakeHumanReadableLabel"]}
{"id": "C33", "title": "domaintree persistence", "statement": "Insert, Delete and DeleteSubdomains never change what previously obtained trees report, in every history over any number of live versions.", "quantifier": "all histories over any number of live trees", "why_tests_cant": "aliasing through two levels of shared structure", "anchors": ["domaintree/domaintree.go:Insert,Delete,DeleteSubdomains,copy,copyBranch"]}
{"id": "C34", "title": "domaintree InplaceInsert equals Insert", "statement": "InplaceInsert on a tree with exclusive access leaves the contents Insert would return, on every tree obtained from the package's operations.", "quantifier": "all reachable trees, names, values", "why_tests_cant": "depends on how the tree was built", "anchors": ["domaintree/domaintree.go:InplaceInsert"]}
{"id": "C35", "title": "domaintree operations accept every parsed name", "statement": "Insert, Get, Delete and DeleteSubdomains never panic for any name MakeNameFromString accepts (up to 127 labels).", "quantifier": "all reachable trees, all accepted names", "why_tests_cant": "boundary of the label array over all trees", "anchors": ["domaintree/domaintree.go:getBranch,Delete,DeleteSubdomains"]}
{"id": "C36", "title": "domaintree keeps no dead branches", "statement": "In every tree built by Insert/Delete/DeleteSubdomains each node other than the root has a value or a non-empty set of branches.", "quantifier": "all reachable trees", "why_tests_cant": "invariant over histories", "anchors": ["domaintree/domaintree.go:Delete,DeleteSubdomains,copyBranch"]}
{"id": "C37", "title": "iptree GetByNet is longest-prefix match over IPv4 and IPv6", "statement": "After any history of InsertNet/InsertIP/DeleteByNet/DeleteByIP, GetByNet(n) returns the value of the longest stored network of the same family that contains or equals n (for IPv6 over the full 128 bits, across the internal 64-bit split), and not-found iff none does.", "quantifier": "all histories, all networks", "why_tests_cant": "2^128 addresses times histories", "anchors": ["iptree/iptree.go:InsertNet,GetByNet,DeleteByNet"]}
{"id": "C38", "title": "iptree DeleteByNet removes exactly the contained networks", "statement": "DeleteByNet(n) removes exactly the stored networks of the same family contained in n; the flag is true iff something was removed.", "quantifier": "all reachable trees, all networks", "why_tests_cant": "all trees, across the 64-bit split", "anchors": ["iptree/iptree.go:DeleteByNet"]}
{"id": "C39", "title": "iptree Enumerate lists canonical networks once, in order", "statement": "Enumerate yields every stored network exactly once with its value and with host bits cleared, IPv4 before IPv6, each family in ascending order of address and then prefix length.", "quantifier": "all reachable trees", "why_tests_cant": "unbounded trees", "anchors": ["iptree/iptree.go:Enumerate,enumerate,unpackUint32ToIP,unpackUint64ToIP"]}
{"id": "C40", "title": "iptree address families and malformed networks", "statement": "Operations on one family never affect the other; a network whose address length and mask length do not match or whose mask is not canonical (and nil) changes nothing and is never found.", "quantifier": "all trees and all IPNet values", "why_tests_cant": "all byte slices", "anchors": ["iptree/iptree.go:iPv4NetToUint32,iPv6NetToUint64Pair,InsertNet,GetByNet,DeleteByNet"]}
{"id": "C41", "title": "iptree single-address operations", "statement": "InsertIP/GetByIP/DeleteByIP(ip) act as the /32 network for a 4-byte or IPv4-mapped address, as the /128 network for other 16-byte addresses, and as no-ops for any other length.", "quantifier": "all byte slices as addresses", "why_tests_cant": "all addresses", "anchors": ["iptree/iptree.go:newIPNetFromIP,InsertIP,GetByIP,DeleteByIP"]}
{"id": "C42", "title": "iptree InplaceInsertNet equals InsertNet", "statement": "On an exclusively owned tree InplaceInsertNet leaves the same contents as InsertNet returns.", "quantifier": "all reachable trees, networks, values", "why_tests_cant": "two nested in-place structures", "anchors": ["iptree/iptree.go:InplaceInsertNet"]}
{"id": "C43", "title": "iptree UpdateDescendants touches exactly the strict descendants", "statement": "If the target network is stored, UpdateDescendants invokes the callback exactly once for each stored network strictly contained in it, with its key and current value, and replaces exactly those values for which the callback returned true; if the target is not stored nothing changes.", "quantifier": "all reachable trees, targets and callbacks", "why_tests_cant": "all trees and callbacks", "anchors": ["iptree/iptree.go:UpdateDescendants,updateNode64"]}
{"id": "C44", "title": "iptree never hits the invalid-tree panic", "statement": "The 'invalid IPv6 tree' panics in InsertNet, InplaceInsertNet and DeleteByNet are unreachable through the public API.", "quantifier": "all histories", "why_tests_cant": "unreachability over all histories", "anchors": ["iptree/iptree.go:InsertNet,InplaceInsertNet,DeleteByNet"]}
{"id": "C45", "title": "iptree persistence", "statement": "InsertNet and DeleteByNet never change what previously obtained trees report, in every history over any number of live versions.", "quantifier": "all histories over any number of live trees", "why_tests_cant": "aliasing through nested trees", "anchors": ["iptree/iptree.go:InsertNet,DeleteByNet"]}
{"id": "C46", "title": "IP address packing round trip", "statement": "Packing 4 (8) address bytes to uint32 (uint64) and unpacking gives the same bytes, and conversely; bit i of the packed word is bit i of the address in network order.", "quantifier": "all addresses", "why_tests_cant": "2^64 addresses", "anchors": ["iptree/iptree.go:packIPToUint32,unpackUint32ToIP,packIPToUint64,unpackUint64ToIP"]}
{"id": "C47", "title": "uintX iptree GetByNet is longest-prefix match", "statement": "In the generated iptree8/16/32/64 packages GetByNet is longest-prefix match as in iptree, after any history.", "quantifier": "all histories, all networks", "why_tests_cant": "2^128 addresses times histories", "anchors": ["uintX/iptree8/iptree.go:InsertNet,GetByNet", "uintX/iptree8/node64s.go"]}
{"id": "C48", "title": "uintX iptree DeleteByNet removes exactly the contained networks", "statement": "In the generated iptree packages DeleteByNet(n) removes exactly the stored networks contained in n and reports whether something was removed, for both families.", "quantifier": "all reachable trees, all networks", "why_tests_cant": "all trees", "anchors": ["uintX/iptree8/iptree.go:DeleteByNet"]}
{"id": "C49", "title": "Enumerate channel protocol", "statement": "For every schedule of producer goroutine and consumer, a consumer that drains the channel receives exactly the tree's entries in order and then sees it closed, with no deadlock; at every point what was received is a prefix of the entries.", "quantifier": "all interleavings of producer and consumer", "why_tests_cant": "schedules", "anchors": ["numtree/node32.go:Enumerate", "strtree/strtree.go:Enumerate", "domaintree/domaintree.go:Enumerate", "iptree/iptree.go:Enumerate"]}
{"id": "C50", "title": "readers of an old version are unaffected by a concurrent copy-on-write writer", "statement": "For every interleaving of the memory accesses of a Get/Match on an old tree with those of an Insert/Delete producing a new one, the reader's answer is the one for the old tree.", "quantifier": "all interleavings", "why_tests_cant": "schedules", "anchors": ["strtree/node.go:insert,del,get", "numtree/node32.go:insert,del,match"]}
{"id": "C51", "title": "Dot output describes the tree", "statement": "Dot numbers the nodes consecutively in breadth-first order, emits each node line exactly once, and each edge line connects a node to the numbers of its two children.", "quantifier": "all trees", "why_tests_cant": "unbounded trees; index arithmetic on the queue length", "anchors": ["numtree/node32.go:Dot", "strtree/node.go:dot"]}
{"id": "C52", "title": "etc path prefix handling", "statement": "fullSplit returns the path components in order for any number of components; getRelName(p,prefix) strips exactly the prefix components when they are a prefix and otherwise yields the base name.", "quantifier": "all component lists", "why_tests_cant": "reallocation boundary at every multiple of ten components", "anchors": ["etc/names.go:fullSplit,hasPrefix,getRelName"]}
{"id": "C53", "title": "uintX iptree listing agrees with lookup", "statement": "In the generated iptree packages, after any history, Enumerate lists networks strictly ascending (IPv4 first, then by address, then by prefix length), each under its canonical key, and GetByNet of a listed key returns the listed value.", "quantifier": "all histories", "why_tests_cant": "all trees; the listed key is assembled from two nodes and re-masked", "anchors": ["uintX/iptree8/iptree.go:Enumerate,enumerate,GetByNet"]}
{"id": "C54", "title": "etc output names stay under the template's directory", "statement": "For every template path and every file found below it, the relative name shown starts with the template's base name and the rest is the file's path below the template; the prefix used is the directory of the absolute path; the file system root is refused.", "quantifier": "all absolute and relative path strings", "why_tests_cant": "unbounded paths with dots, double slashes and .. components", "anchors": ["etc/names.go:makePrefix,getRelName", "etc/main.go:execute"]}
{"id": "C55", "title": "etc data selector follows dotted keys", "statement": "The sel function of the template data follows the dotted keys of its argument through the nested maps and returns the value found there, and an error exactly when a key is missing or a value on the way is not a map.", "quantifier": "all selectors and all nested data", "why_tests_cant": "unbounded nesting and all splits of the selector", "anchors": ["etc/data.go:sel"]}
{"id": "C56", "title": "leaving an enumeration early leaks its goroutines", "statement": "If the caller of Enumerate stops receiving before it has received everything, the producer goroutines never return and the channel is never closed; if everything had been received they do return.", "quantifier": "all trees, all interleavings, all points at which the caller stops", "why_tests_cant": "quantifies over all schedules and infinite futures", "anchors": ["numtree/node32.go:Enumerate", "strtree/strtree.go:Enumerate", "dltree/dltree.go:Enumerate", "domaintree/domaintree.go:Enumerate", "iptree/iptree.go:Enumerate"]}
{"id": "C57", "title": "any number of goroutines may work on from the same trees", "statement": "Goroutines that start from the same trees and derive new trees from them (Insert, Delete, ...), read them, and insert in place only into trees they started themselves, do not notice each other: for every schedule of their memory accesses none panics, each ends once it has had enough turns, each read gives the answer for the calls that made the tree it reads, each ends with exactly the trees its own calls make, no goroutine ever writes a memory cell that existed at the start, and the trees held at the start keep showing what they showed.", "quantifier": "all histories, any number of goroutines, all scripts, all schedules", "why_tests_cant": "all interleavings of any number of threads; the race detector only sees the schedules that occur", "anchors": ["numtree/node32.go:Insert,Delete,Match", "strtree/strtree.go:Insert,Delete,Get,Enumerate", "iptree/iptree.go:InsertNet,DeleteByNet,GetByNet", "domaintree/domaintree.go:Insert,Delete,DeleteSubdomains,Get", "dltree/dltree.go:Insert,Delete,Get,RawEnumerate", "uintX/iptree8/iptree.go:InsertNet,DeleteByNet,GetByNet,Enumerate"]}
{"id": "C58", "title": "dltree persistence and in-place insertion", "statement": "Insert, RawInsert, Delete and RawDelete leave the tree they are called on and every other tree as they were; every tree shows exactly the labels its own chain of calls left (Get, RawGet, IsEmpty, Enumerate, RawEnumerate). InplaceInsert and RawInplaceInsert on a tree that shares nothing with other held trees have the effect of Insert and RawInsert and change no other tree; on a nil *Tree they panic.", "quantifier": "all histories with any number of live trees derived from each other, all labels", "why_tests_cant": "sharing between unboundedly many versions", "anchors": ["dltree/dltree.go:Insert,RawInsert,InplaceInsert,RawInplaceInsert,Delete,RawDelete,Get,RawGet,IsEmpty,Enumerate,RawEnumerate", "dltree/node.go"]}
{"id": "C59", "title": "persistence and in-place insertion of the generated IP trees", "statement": "In uintX/iptree8, 16, 32 and 64: InsertNet, InsertIP, DeleteByNet and DeleteByIP write no memory that existed before, so the tree they are called on and every other tree answer as before; every tree shows exactly the networks its own chain of calls left (GetByNet, Enumerate). InplaceInsertNet and InplaceInsertIP on a tree that shares nothing with other held trees leave a tree that answers every query as the one InsertNet returns, also when the network is spelled with bits behind its mask, and change no other tree. On a nil *Tree they panic, unless the argument is not a network.", "quantifier": "all histories with any number of live trees derived from each other, all networks", "why_tests_cant": "sharing between unboundedly many versions, nested trees shared across versions", "anchors": ["uintX/iptree8/iptree.go:InsertNet,InplaceInsertNet,InsertIP,InplaceInsertIP,DeleteByNet,DeleteByIP,GetByNet,Enumerate", "uintX/iptree8/node32.go", "uintX/iptree8/node64.go", "uintX/iptree8/node64s.go"]}
{"id": "C60", "title": "UpdateDescendants works in place", "statement": "UpdateDescendants writes only values in nodes of the tree it is called on. Called on a tree that shares nothing with other held trees, with a stored network, it ends without panic, the callback has run on exactly the listed networks strictly below, in listing order, and the tree lists the replaced values; all other held trees answer every query as before, and goroutines that update trees of their own while others read or derive from shared trees do not notice each other. Called on a tree that shares nodes with an older one, the new values are seen through the older one too; every held tree keeps listing the same networks in the same order and answers lookups with the longest match. A nil network, or a nil tree with a network, panics.", "quantifier": "all histories of insertions, deletions, in-place insertions and updates with any number of live trees, all networks and callbacks", "why_tests_cant": "sharing between unboundedly many versions, nested trees, callbacks with state", "anchors": ["iptree/iptree.go:UpdateDescendants,updateNode64", "numtree/node32.go:FindNode,Enumerate", "numtree/node64.go:FindNode,Enumerate"]}
{"id": "C61", "title": "cost of calls on prefix trees", "statement": "However many entries a tree holds and whatever calls made it, one lookup, insertion, in-place insertion or deletion in numtree, iptree and the generated IP trees reads, writes and allocates at most a number of nodes fixed by the key width: for width w a numtree lookup visits at most w+3 nodes, an insertion allocates at most w+3; an iptree GetByNet reads at most 203 cells, InsertNet allocates at most 135. Listing a numtree tree reads at most twice as many nodes as it yields entries.", "quantifier": "all trees reachable by any history, all keys and lengths", "why_tests_cant": "a bound for all tree sizes and shapes; tests only time particular trees", "anchors": ["numtree/node32.go", "numtree/node64.go", "iptree/iptree.go", "uintX/iptree8/iptree.go", "uintX/iptree8/node64s.go"]}
{"id": "C62", "title": "cost of calls on balanced trees", "statement": "With n entries in the tree and b = 2*log2(n+1), whatever calls made it: strtree and dltree lookups read at most b+1 nodes (b+2 with the tree object), insertions and deletions access a number of cells linear in b and allocate at most 6b+11; Enumerate of strtree reads at most as many nodes as it yields entries. In domaintree, with n the number of stored domains, a call with a name of L labels costs at most L times a number linear in b plus a constant: deletions before do not degrade it and sizes of unrelated levels do not matter.", "quantifier": "all trees reachable by any history, all keys", "why_tests_cant": "a bound for all tree sizes and insertion or deletion orders", "anchors": ["strtree/node.go:insert,inplaceInsert,get,del", "dltree/node.go", "dltree/dltree.go", "domaintree/domaintree.go"]}
{"id": "C63", "title": "loops over Enumerate with calls in the body", "statement": "A caller that loops over Enumerate of a tree (numtree, strtree, iptree, generated IP trees, dltree incl. RawEnumerate, domaintree) may, in the loop body, read any tree, derive trees by insertion and deletion from any tree including the one being listed, start and change in place trees of other origin, and run further loops. However the steps of the caller and of the goroutines behind the channels interleave, the loop runs over exactly the entries the tree had when the loop began, in listing order, every read in a body has the answer it would have in straight-line code, nothing panics or deadlocks, everything ends and no goroutine is left. With an in-place insertion into the tree being listed the number of rounds depends on the schedule.", "quantifier": "all histories, all scripts with nested loops, all interleavings of single memory accesses and channel operations", "why_tests_cant": "interleavings of caller and goroutines on shared nodes; unbounded nesting and trees", "anchors": ["numtree/node32.go:Enumerate,enumerate", "numtree/node64.go:Enumerate,enumerate", "strtree/strtree.go:Enumerate", "strtree/node.go:enumerate", "iptree/iptree.go:Enumerate,enumerate", "uintX/iptree8/iptree.go:Enumerate,enumerate", "dltree/dltree.go:Enumerate,RawEnumerate", "dltree/node.go:enumerate,rawEnumerate", "domaintree/domaintree.go:Enumerate,enumerate"]}
{"id": "C64", "title": "UpdateDescendants does not depend on the schedule of its goroutines", "statement": "UpdateDescendants writes values into the nodes that goroutines started by numtree's Enumerate are walking at the same time. However caller and goroutines interleave, the call ends without panic or deadlock, leaves no goroutine behind, runs the callback on the same networks in the same order, and leaves the same memory as the run in which every loop body is executed when its node is sent. In particular all of C60 holds under every schedule.", "quantifier": "all histories of insertions, deletions, in-place insertions and updates with any number of live trees, all networks and callbacks, all schedules", "why_tests_cant": "the number of interleavings of the caller with one goroutine per nested tree is unbounded; a test run sees one of them", "anchors": ["iptree/iptree.go:UpdateDescendants,updateNode64", "numtree/node32.go:Enumerate,enumerate", "numtree/node64.go:Enumerate,enumerate"]}
{"id": "C65", "title": "several goroutines of the client, each looping over Enumerate of shared trees", "statement": "Any number of goroutines of the client may work on from the same trees: each reads them, derives trees from them, loops over Enumerate of any tree it holds (with calls and further loops in the bodies), and changes in place trees it started itself. However all memory accesses and channel operations of all of them and of the library's goroutines interleave, nothing panics, nobody is about to write memory that another can see, a goroutine that has not ended can always move and ends after a bounded number of its own steps, leaves no library goroutine behind, and sees exactly what it would see alone; the shared trees stay as they were. If one goroutine inserts in place into a tree another loops over, what the other sees depends on the schedule.", "quantifier": "all histories, any number of goroutines with any scripts with nested loops, all interleavings", "why_tests_cant": "unboundedly many goroutines and interleavings; the race detector only judges the runs it sees", "anchors": ["numtree/node32.go:Enumerate,enumerate,Insert,Delete,InplaceInsert", "numtree/node64.go:Enumerate,enumerate", "strtree/strtree.go:Enumerate", "iptree/iptree.go:Enumerate,enumerate", "uintX/iptree8/iptree.go:Enumerate,enumerate", "dltree/dltree.go:Enumerate,RawEnumerate", "domaintree/domaintree.go:Enumerate,enumerate"]}
{"id": "C66", "title": "MakeLabel: every outcome", "statement": "For every byte string exactly one of these holds: it is the text of a label of at most 63 characters, with or without a final dot, and MakeLabel returns the decoded upper-cased label; it has more than 63 characters and MakeLabel returns the label-too-long error; it has a broken escape within the first 64 characters and MakeLabel returns the invalid-escape error; it has an unescaped dot before its last byte, after at most 63 characters, and MakeLabel panics.", "quantifier": "all byte strings", "why_tests_cant": "all combinations of escapes, dots and lengths", "anchors": ["domain/label.go:MakeLabel,getLabel"]}
{"id": "C67", "title": "MakeNameFromString: every error names the defect", "statement": "MakeNameFromString returns an error exactly for the texts with a defect, and the error says which: an empty label, a 128th label, a broken escape (whichever comes first in the text), or otherwise, from the last label on, a label of more than 63 characters or a name of more than 255 bytes.", "quantifier": "all byte strings", "why_tests_cant": "all combinations of several defects in one text", "anchors": ["domain/name.go:MakeNameFromString", "domain/label.go:markLabels,getLabel"]}
{"id": "C68", "title": "MakeNameFromReflection", "statement": "MakeNameFromReflection gives back a wrapped Name or pointer to a Name, parses a wrapped string or pointer to a string as MakeNameFromString does and panics if that returns an error, and panics for all other values.", "quantifier": "all reflected values", "why_tests_cant": "all values and pointer depths", "anchors": ["domain/name.go:MakeNameFromReflection"]}
{"id": "C69", "title": "etc works on every entry of the template catalog once and changes nothing else", "statement": "If the names worked out for the entries of the catalog lead outside the catalog, etc always ends. However it ends, the catalog is unchanged, nothing has disappeared, and only targets of catalog entries (and directories on the way to them) have changed. If it ends normally, every entry has been worked on exactly once, directories before their contents and names in byte order; every target directory exists and every target file has the complete text made from the last catalog file going there. It does end normally if no name, text or existing file stands in the way. If results lead into the catalog, it may run forever.", "quantifier": "all file trees, data, template and YAML functions", "why_tests_cant": "all directory trees and all template results, including clashes and failures half-way", "anchors": ["etc/main.go:execute", "etc/file.go:executeDir,executeFile", "etc/template.go:executeString"]}
{"id": "C70", "title": "etc writes nothing if its input is unusable", "statement": "Without a template, without usable data, with the root directory as template, with a template that does not exist or whose name cannot be worked out or stays the same, etc stops before anything has been written. Running without -d always stops.", "quantifier": "all file trees, options, template and YAML functions", "why_tests_cant": "all combinations of bad input", "anchors": ["etc/main.go:main,execute", "etc/data.go:load", "etc/config.go:parseFlags", "etc/names.go:makePrefix"]}
{"id": "C71", "title": "Dot writes a well-formed Graphviz text whatever keys and values are", "statement": "The text returned by Dot of numtree, strtree, dltree and the generated strtrees splits into words of the DOT language, and these are exactly: the frame of the graph, one statement per drawn position in breadth-first order with its number, label and colour, and the arrows to the children. Keys and values with quotes, backslashes, brackets or line feeds stay inside their labels. A nil tree gives a graph without nodes.", "quantifier": "all trees, keys, values and quoting functions as %q", "why_tests_cant": "all byte strings as keys and all value texts; unbounded trees", "anchors": ["numtree/node32.go:Dot,dotString", "numtree/node64.go:Dot,dotString", "strtree/node.go:dot,dotString", "strtree/strtree.go:Dot", "dltree/node.go:dot,dotString", "dltree/dltree.go:Dot", "uintX/strtree8/node.go:dotString"]}
{"id": "C72", "title": "Trees with the same Dot text are the same", "statement": "Two trees with the same Dot text have the same shape, keys and colours and values with the same %#v text.", "quantifier": "all pairs of trees, keys and values", "why_tests_cant": "all pairs of trees", "anchors": ["numtree/node32.go:dotString", "strtree/node.go:dotString", "dltree/node.go:dotString", "uintX/strtree8/node.go:dotString"]}
{"id": "C73", "title": "strtree with a comparison function of any kind", "statement": "With any comparison function at all, every tree that calls of Insert and Delete return is a red-black tree. Insert returns exactly if the tree is empty, the comparison finds the key equal to itself, or Get finds the key; then it takes at most 2*height+2 iterations, Get finds the new value, and the listing changes by exactly one added pair or one replaced value. In all other cases Insert never returns and never panics, and the tree it builds grows without bound. Delete always returns, reports whether Get finds the key, and takes out exactly one pair or none.", "quantifier": "all comparison functions (no laws assumed), all histories, keys and values", "why_tests_cant": "all functions as comparisons; divergence cannot be observed", "anchors": ["strtree/strtree.go:NewTreeWithCustomComparison,Insert,Delete", "strtree/node.go:insert,inplaceInsert,del"]}
{"id": "C74", "title": "a lookup that finds nothing returns the zero value", "statement": "Every lookup (Match, ExactMatch, Get, RawGet, GetByNet, GetByIP) that returns false as its flag returns nil or 0 as its value; one that returns true returns the stored value.", "quantifier": "all trees, keys, networks and zero values; numtree and iptree after every history of calls", "why_tests_cant": "the value beside a false flag is rarely looked at, and an interface that holds a nil pointer prints like nil", "anchors": ["numtree/node32.go:Match,ExactMatch", "numtree/node64.go:Match,ExactMatch", "iptree/iptree.go:GetByNet,GetByIP", "strtree/strtree.go:Get", "dltree/dltree.go:Get,RawGet", "domaintree/domaintree.go:Get", "uintX/iptree8/iptree.go:GetByNet"]}
{"id": "C75", "title": "dltree Enumerate with raw labels of any length", "statement": "A loop over Enumerate receives the printed forms of the stored raw labels in order. It is cut short, by a panic in the goroutine of Enumerate that ends the program, exactly if a stored label has a capital letter where the text before it takes 252 characters; then exactly the pairs before the first such label have been received. With labels of at most 63 bytes this never happens. Labels that differ only behind the 252nd printed character are listed under the same key.", "quantifier": "all histories of Insert, RawInsert, Delete and RawDelete with labels of any length", "why_tests_cant": "needs labels longer than the limits; all positions of capital letters and escapes", "anchors": ["dltree/dltree.go:RawInsert,Enumerate", "dltree/node.go:enumerate", "domain/label.go:MakeHumanReadableLabel"]}
{"id": "C76", "title": "keys handed out by iptree belong to the receiver", "statement": "The networks Enumerate of iptree and of uintX/iptreeX sends, and those UpdateDescendants passes to its callback, lie in memory of their own: no two share bytes, nor do the address and the mask of one. A receiver may overwrite them at any time, also while the walk goes on; the walk neither reads nor writes them again and still delivers the right keys.", "quantifier": "all trees, all networks, all answers of the callback, all interleavings with a client that changes what it owns, any spare capacity left by append", "why_tests_cant": "append reuses the array of MSIP over and over; an aliasing bug shows only for a receiver that keeps or changes keys at the right moment", "anchors": ["iptree/iptree.go:Enumerate,enumerate,UpdateDescendants,updateNode64", "uintX/iptree8/iptree.go:enumerate"]}
{"id": "C77", "title": "InplaceInsert on trees that share nodes with other trees", "statement": "After Insert or Delete the old and the new tree share nodes, and InplaceInsert into one of them can be seen through the other. For numtree the damage is limited: InplaceInsert into any held tree never panics, the root it returns holds exactly the old entries and the new one, and every other held tree either is unchanged or receives the same insertion and nothing else; a tree with no node in common is unchanged. For strtree there is no such limit: the other tree can lose a key it held. For numtree this reaches only trees of the same origin: trees that do not descend from a common tree show exactly what their own calls made.", "quantifier": "numtree: all histories of Insert, Delete and InplaceInsert on any number of trees with no exclusivity condition, all keys and lengths, both widths; strtree: a concrete history", "why_tests_cant": "what leaks depends on which nodes two trees share, that is on the whole history of both", "anchors": ["numtree/node32.go:InplaceInsert,inplaceInsert", "numtree/node64.go:InplaceInsert,inplaceInsert", "strtree/strtree.go:InplaceInsert"]}
{"id": "C78", "title": "A tree keeps memory only for its current entries", "statement": "After any history of inserts, deletes, in-place inserts and forgotten trees, the memory a held tree keeps alive (the cells reachable from its pointer, which the garbage collector cannot free) is bounded by what its Enumerate lists now: numtree at most 2 nodes per entry, strtree exactly its entries, dltree one more, iptree and the uintX trees at most 1 + 3 per network, domaintree at most 2 + 3 for every label of every listed domain. No deleted or overwritten value is kept alive: every value in a kept cell is one Enumerate lists (or nil in nodes that hold no entry).", "quantifier": "all legal histories of the memory models, any number of trees sharing nodes, all keys, values and lengths", "why_tests_cant": "unreachable garbage and retained stale values cannot be observed through the API, and the bound has to hold after arbitrarily long histories", "anchors": ["numtree/node32.go", "numtree/node64.go", "strtree/strtree.go", "dltree/dltree.go", "iptree/iptree.go", "uintX/iptree8/iptree.go", "domaintree/domaintree.go"]}
{"id": "C79", "title": "Copying and merging trees through Enumerate", "statement": "Inserting everything a tree's Enumerate lists, in any order, into another tree gives a tree that lists exactly the entries of the source and those entries of the destination whose key the source does not have; into an empty tree it gives the same listing as the source (for numtree also the same shape). For strtree a key both trees have keeps the spelling of the destination and gets the value of the source. For domaintree every listed key parses with MakeNameFromString and the parsed name denotes the same domain; for dltree this holds of Enumerate/Insert if the labels are upper case and at most 63 bytes (as Insert stores them) and of RawEnumerate/RawInsert always.", "quantifier": "all histories of both trees, all orders of the copied entries, all keys and values, every lawful comparison (strtree)", "why_tests_cant": "the round trip goes through the text or net.IPNet form of every key and must hold for every pair of trees and every order of the copied entries (a tree built in listing order has a very different history from the source)", "anchors": ["numtree/node32.go", "numtree/node64.go", "strtree/strtree.go", "dltree/dltree.go", "iptree/iptree.go", "uintX/iptree8/iptree.go", "domaintree/domaintree.go", "domain/label.go"]}
{"id": "C80", "title": "Nodes of a numtree are trees of their own", "statement": "FindNode returns a node exactly if the prefix is stored, namely the leaf of that prefix. A node got from FindNode or Children is a tree of its own: its lookups, Enumerate and the flag of Delete are those of exactly the entries below it, and trees may be derived from it, nodes taken from it again, without changing the tree it came from or any other tree held. The prefix of a node is the longest one containing all its entries; a node is a leaf exactly if its own prefix is stored, otherwise its Value is nil and it has both children; its children hold the entries going on with a zero and with a one bit. With exclusive access, assigning to Value of a node found has the effect of an insert under its key. Goroutines may do all this with shared trees. Children of a nil node panics.", "quantifier": "all chains and histories of Insert, Delete, InplaceInsert, FindNode, Children and assignments, any number of live roots and nodes, all schedules of any number of goroutines, both key sizes", "why_tests_cant": "the nodes handed out share memory with the tree they come from; that nothing done to one shows in the other has to hold in every interleaved history", "anchors": ["numtree/node32.go:129-131", "numtree/node32.go:144-164", "numtree/node64.go:68-70", "numtree/node64.go:141-158"]}
{"id": "C81", "title": "A published tree can be replaced while others read it", "statement": "A program keeps its current tree in one variable. Goroutines load it at any time and read the trees they have loaded; the one that has the lock may derive trees from the ones it holds, fill trees it has just started in place, and store one in the variable. Then no goroutine fails; what happens is what the goroutines were to do, in their order; every answer is right for the tree asked about, whatever is stored in the meantime; no two goroutines ever touch the same node with one of them writing; a read ends within the turns it would need alone (readers never wait); and some goroutine can always go on until all have come to their end. Without the lock changes get lost.", "quantifier": "all histories before, any number of goroutines, all programs of loads, reads, locked calls and stores that may depend on the answers, all schedules; all packages", "why_tests_cant": "freshly made nodes pass from the writer to running readers; that no schedule lets a reader see a half-built or later changed node cannot be settled by trying schedules", "anchors": ["numtree/node32.go:Insert,Delete,Match", "strtree/strtree.go:Insert,InplaceInsert,Delete,Get,Enumerate", "iptree/iptree.go:InsertNet,DeleteByNet,GetByNet", "domaintree/domaintree.go:Insert,Delete,DeleteSubdomains,Get", "dltree/dltree.go:Insert,Delete,Get,RawEnumerate", "uintX/iptree8/iptree.go:InsertNet,DeleteByNet,GetByNet,Enumerate"]}
{"id": "C82", "title": "A tree in a variable changed under a lock is an atomic map", "statement": "Goroutines change the tree in a shared variable by lock, load, Insert or Delete, store, unlock, and ask it by load and lookup or Enumerate without the lock. Then all these operations happen as if one after the other: there is one order of them, respecting the order in which they took effect (store of a change, load of a question) and the order of each goroutine, such that every answer is right for exactly the changes before it and the variable shows all the changes. No change is lost and no question sees part of one.", "quantifier": "all histories before, any number of goroutines and operations, all schedules; all packages", "why_tests_cant": "linearizability quantifies over all schedules", "anchors": ["numtree/node32.go:Insert,Delete,Match", "strtree/strtree.go:Insert,InplaceInsert,Delete,Get,Enumerate", "iptree/iptree.go:InsertNet,DeleteByNet,GetByNet", "domaintree/domaintree.go:Insert,Delete,DeleteSubdomains,Get", "dltree/dltree.go:Insert,Delete,Get,RawEnumerate", "uintX/iptree8/iptree.go:InsertNet,DeleteByNet,GetByNet,Enumerate"]}
{"id": "C83", "title": "A call that is given up in the middle harms no other tree", "statement": "A call may end in the middle: the comparison function given to strtree panics and the caller recovers, or the goroutine is ended. A copy-on-write call (Insert, Delete) that ends so leaves no trace: every tree held before shows exactly what it showed, and later calls work on it as if the call had not been made. An in-place call that ends so harms only the tree it was made on; that tree must not be used again (entries stored long before can be gone). With strtree a call can be left unfinished only by a comparison function that panics.", "quantifier": "all histories with any number of calls given up after any number of memory accesses, all packages; for strtree all clients that recover from panics and go on by the outcome", "why_tests_cant": "a call can end after any of its steps in any history; tests try a few", "anchors": ["strtree/strtree.go:NewTreeWithCustomComparison,Insert,InplaceInsert,Delete", "strtree/node.go:insert,inplaceInsert,del", "numtree/node32.go:Insert,Delete", "iptree/iptree.go:InsertNet,DeleteByNet", "domaintree/domaintree.go:Insert,Delete", "dltree/dltree.go:Insert,Delete", "uintX/iptree8/iptree.go:InsertNet,DeleteByNet"]}
{"id": "C84", "title": "Zero values: a zero numtree node is an empty map, a strtree without comparison takes one key", "statement": "A numtree started from a zero node (&Node32{}, &Node64{}) instead of nil answers ExactMatch, Match and Enumerate exactly as the map written by the same calls, whatever Insert, InplaceInsert and Delete follow. Delete reports true iff an entry lies below the given network, except that with 0 bits on a tree that is not nil it always reports true; a deletion it does not report changes nothing. A strtree with a nil comparison function (Tree{}, NewTreeWithCustomComparison(nil)) finds and deletes nothing while empty and takes one key; from then on every Get, Insert, InplaceInsert and Delete panics, and no such call changes what the tree lists.", "quantifier": "all histories of calls from a zero node, all keys, bits and values; all keys and values for strtree", "why_tests_cant": "a zero node at the root is a state no call on nil produces, so every case of every function meets it in new places; tests start from nil or NewTree", "anchors": ["numtree/node32.go:Insert,InplaceInsert,Enumerate,Match,ExactMatch,Delete", "numtree/node64.go:Insert,InplaceInsert,Enumerate,Match,ExactMatch,Delete", "strtree/strtree.go:NewTreeWithCustomComparison,Insert,InplaceInsert,Get,Delete", "strtree/node.go:insert,inplaceInsert,get,del"]}
{"id": "C85", "title": "A callback of UpdateDescendants that panics leaves a usable tree", "statement": "If the callback given to UpdateDescendants panics, the call panics, and it panics in no other case (for a stored network on a tree the caller alone holds). The networks the callback was called for before have the values it asked for; the one it panicked on and all later ones keep their values; nothing else is changed. A caller that recovers may go on with the tree: all later calls work as if the callback had asked for no further change (the goroutine left behind by the panic is the subject of C105). Other trees are not affected.", "quantifier": "all histories, all callbacks (answering from all calls so far, the key and the value), any point of panic", "why_tests_cant": "a callback can panic at any visit in any tree; tests use callbacks that return", "anchors": ["iptree/iptree.go:UpdateDescendants", "iptree/iptree.go:updateNode64"]}
{"id": "C86", "title": "When a generated IP tree behaves as iptree does", "statement": "The same calls made on an iptree and on a generated IP tree lead to the same answers of GetByNet, GetByIP and Enumerate after each call, exactly if no call deletes a hollow network: an IPv6 network of less than 64 bits that is not stored itself while something below it is. After such a history a deletion reports the same in both unless its network is hollow; then iptree reports true and the generated tree false.", "quantifier": "all histories of insertions and deletions (malformed arguments included), all lookups", "why_tests_cant": "the two packages are tested apart; agreement for all histories and the exact condition cannot be enumerated", "anchors": ["iptree/iptree.go:InsertNet,InsertIP,GetByNet,GetByIP,DeleteByNet,DeleteByIP,Enumerate", "uintX/iptree8/iptree.go:InsertNet,InsertIP,GetByNet,GetByIP,DeleteByNet,DeleteByIP,Enumerate"]}
{"id": "C87", "title": "Under a read-write lock trees may be changed in place while others read", "statement": "Goroutines share one tree guarded by a sync.RWMutex: with the lock for writing they change it in place or replace it by the result of a copy-on-write call, with the lock for reading (or writing) they ask it. If the tree shares no nodes with other trees held, then no goroutine fails; every answer is right for the changes made before it, none lost; between taking and giving back the lock for writing nobody else sees or does anything, and while the lock is held for reading nothing changes; no two goroutines ever touch the same node with one of them writing; some goroutine can always go on until all have come to their end; the other trees stay as they are. Reading in one section and writing in the next is not atomic. Without the lock a Get beside an InplaceInsert of another key can miss a stored key (strtree, dltree, domaintree).", "quantifier": "all histories before, any number of goroutines, all programs of locked changes and questions that may depend on the answers, all schedules; all packages", "why_tests_cant": "mutual exclusion together with in-place rebalancing has to hold for every schedule", "anchors": ["numtree/node32.go:Insert,Delete,Match", "strtree/strtree.go:Insert,InplaceInsert,Delete,Get,Enumerate", "iptree/iptree.go:InsertNet,DeleteByNet,GetByNet", "domaintree/domaintree.go:Insert,Delete,DeleteSubdomains,Get", "dltree/dltree.go:Insert,Delete,Get,RawEnumerate", "uintX/iptree8/iptree.go:InsertNet,DeleteByNet,GetByNet,Enumerate"]}
{"id": "C88", "title": "Goroutines sharing trees come to their end", "statement": "In the settings of C81 (a tree in a variable, changed under a lock) and C87 (a tree under a read-write lock), if every one of finitely many goroutines gets its turn again and again, then after some time all of them have come to their end: no call or lookup runs forever whatever the others do, nobody waits for the lock forever. At any time before what C81 and C87 promise holds.", "quantifier": "all histories before, all finite sets of goroutines, all programs, all infinite schedules (fair ones for the end); all packages", "why_tests_cant": "termination in every fair schedule is a statement about infinite executions", "anchors": ["numtree/node32.go:Insert,Delete,Match", "strtree/strtree.go:Insert,InplaceInsert,Delete,Get,Enumerate", "iptree/iptree.go:InsertNet,DeleteByNet,GetByNet", "domaintree/domaintree.go:Insert,Delete,DeleteSubdomains,Get", "dltree/dltree.go:Insert,Delete,Get,RawEnumerate", "uintX/iptree8/iptree.go:InsertNet,DeleteByNet,GetByNet,Enumerate"]}
{"id": "C89", "title": "Leaving a loop over Enumerate early does no harm to later calls", "statement": "A client may leave loops over Enumerate (and RawEnumerate) at any entry, also nested ones, and go on: all later lookups, listings, insertions and deletions give what they give without the goroutines left behind, nothing panics or waits forever, and the client never writes a node that a goroutine left behind may read at that moment - as long as it does not afterwards insert in place into a tree with a common origin with the one whose loop was left. Of the goroutines, as many never return as loops were left with entries still to come. An insertion in place into a tree whose loop was left does write a node that the goroutine may read at that moment (a data race).", "quantifier": "all histories, all scripts of calls, lookups and nested loops with any condition for leaving, all interleavings; numtree, strtree, iptree, generated IP trees, domaintree, dltree", "why_tests_cant": "a goroutine left behind reads memory at times the client does not control; a test sees few interleavings", "anchors": ["numtree/node32.go:Enumerate,enumerate", "numtree/node64.go:Enumerate,enumerate", "strtree/strtree.go:Enumerate", "strtree/node.go:enumerate", "iptree/iptree.go:Enumerate,enumerate", "uintX/iptree8/iptree.go:Enumerate,enumerate", "dltree/dltree.go:Enumerate,RawEnumerate", "dltree/node.go:enumerate,rawEnumerate", "domaintree/domaintree.go:Enumerate,enumerate"]}
{"id": "C90", "title": "Goroutines sharing a tree variable may loop over Enumerate", "statement": "As C81 (a variable holds the current tree, a lock protects changes of it), and any goroutine may call Enumerate (RawEnumerate) on a tree it holds and receive from the channel when it likes, also from several at a time, and leave loops early. Every channel delivers a right listing of the tree as it was when Enumerate was called, in order and nothing after its end, whatever is derived, published or dropped meanwhile; all answers are right; no goroutine, also none behind a channel, fails; nobody writes a node that another goroutine, also one behind a channel, touches at that moment; some step that changes something is possible until all goroutines have come to their end, and there is no infinite sequence of such steps. While holding the lock, Enumerate must not be called on a tree that was started or changed in place since the lock was taken and the variable last written: going on changing it in place is a data race.", "quantifier": "all histories before, any number of goroutines, all programs of loads, lookups, locked calls and stores, Enumerate calls and receives that may depend on what was seen, all interleavings with the goroutines behind the channels; numtree, strtree, iptree, generated IP trees, domaintree, dltree", "why_tests_cant": "which nodes the goroutines behind the channels read at which moment depends on the schedule", "anchors": ["numtree/node32.go:Enumerate,enumerate", "numtree/node64.go:Enumerate,enumerate", "strtree/strtree.go:Enumerate", "strtree/node.go:enumerate", "iptree/iptree.go:Enumerate,enumerate", "uintX/iptree8/iptree.go:Enumerate,enumerate", "dltree/dltree.go:Enumerate,RawEnumerate", "dltree/node.go:enumerate,rawEnumerate", "domaintree/domaintree.go:Enumerate,enumerate", "numtree/node32.go:Insert,Delete", "strtree/strtree.go:Insert,Delete,Get", "iptree/iptree.go:InsertNet,DeleteByNet,GetByNet", "domaintree/domaintree.go:Insert,Delete,Get", "dltree/dltree.go:Insert,Delete,Get"]}
{"id": "C91", "title": "Loops over Enumerate under a read-write lock", "statement": "As C87 (a tree guarded by a read-write lock, changed in place or replaced with the lock for writing, read with the lock), and whoever has the lock may call Enumerate (RawEnumerate) and receive from the channels; with the lock for writing also make copy-on-write calls during the loop, and change the tree in place after it. All channels have to be seen closed before the lock is given back and before the tree is changed in place. Then every channel delivers a right listing of the tree as it was when Enumerate was called, all answers are right, nobody fails, nobody writes a node that another goroutine, also one behind a channel, touches at that moment, other trees stay as they are, a step is possible until all goroutines have come to their end, and there is no infinite sequence of steps that change anything. Both requirements are needed: leaving a loop early and giving the lock back is a data race with the next in-place call, and receiving after giving the lock back can yield a listing that the tree never had.", "quantifier": "all histories before, any number of goroutines, all programs of lock calls, changes, lookups, Enumerate calls and receives that may depend on what was seen, all interleavings with the goroutines behind the channels; numtree, strtree, iptree, generated IP trees, domaintree, dltree", "why_tests_cant": "the goroutines behind the channels know nothing of the lock; what they read and when depends on the schedule", "anchors": ["numtree/node32.go:Enumerate,enumerate", "numtree/node64.go:Enumerate,enumerate", "strtree/strtree.go:Enumerate", "strtree/node.go:enumerate", "iptree/iptree.go:Enumerate,enumerate", "uintX/iptree8/iptree.go:Enumerate,enumerate", "dltree/dltree.go:Enumerate,RawEnumerate", "dltree/node.go:enumerate,rawEnumerate", "domaintree/domaintree.go:Enumerate,enumerate", "numtree/node32.go:Insert,InplaceInsert,Delete", "strtree/strtree.go:Insert,InplaceInsert,Delete,Get", "iptree/iptree.go:InsertNet,InplaceInsertNet,DeleteByNet,GetByNet", "domaintree/domaintree.go:Insert,InplaceInsert,Delete,Get", "dltree/dltree.go:Insert,InplaceInsert,Delete,Get"]}
{"id": "C92", "title": "The flags of deletions over histories", "statement": "In any history of calls, copy-on-write and in place, on any number of trees, the flag that Delete, DeleteByNet, DeleteByIP, DeleteSubdomains and RawDelete return next to the tree is right in terms of the calls that led to the tree: true exactly if something was removed (for the IP trees and DeleteSubdomains, something at or below the given key; generated IP trees with the exception of C48). The flag is no matter of sharing with other trees, and looking at it or not changes neither memory nor trees.", "quantifier": "all histories of calls that change in place only trees which share no memory with another tree in use, all keys and values; numtree, strtree, iptree, generated IP trees, domaintree, dltree", "why_tests_cant": "the flag depends on the whole history, and on memory shared between trees", "anchors": ["numtree/node32.go:Delete", "numtree/node64.go:Delete", "strtree/strtree.go:Delete", "iptree/iptree.go:DeleteByNet,DeleteByIP", "uintX/iptree8/iptree.go:DeleteByNet,DeleteByIP", "domaintree/domaintree.go:Delete,DeleteSubdomains", "dltree/dltree.go:Delete,RawDelete"]}
{"id": "C93", "title": "The flags of deletions for goroutines that share a variable", "statement": "As C81 (a variable that holds a tree; goroutines load it, change what they loaded under a lock and store the result), and a goroutine may look at the flag of any call it made, or of the tree in the variable, and act on it: the flags are right for the calls that made the tree.", "quantifier": "all histories before, any number of goroutines, all programs that may depend on flags and lookups, all interleavings; numtree, strtree, iptree, generated IP trees, domaintree, dltree", "why_tests_cant": "schedules are unbounded", "anchors": ["numtree/node32.go:Delete", "numtree/node64.go:Delete", "strtree/strtree.go:Delete", "iptree/iptree.go:DeleteByNet,DeleteByIP", "uintX/iptree8/iptree.go:DeleteByNet,DeleteByIP", "domaintree/domaintree.go:Delete,DeleteSubdomains", "dltree/dltree.go:Delete,RawDelete"]}
{"id": "C94", "title": "The flags of deletions under a read-write lock", "statement": "As C87 (a tree guarded by a read-write lock, changed in place or replaced with the lock for writing), and whoever has the lock may look at the flag of the last change: it is right in terms of all changes made by all goroutines so far. Nobody fails, and nobody writes memory that another goroutine reads.", "quantifier": "all histories before, any number of goroutines, all programs that may depend on flags and lookups, all interleavings; numtree, strtree, iptree, generated IP trees, domaintree, dltree", "why_tests_cant": "schedules are unbounded", "anchors": ["numtree/node32.go:Delete", "numtree/node64.go:Delete", "strtree/strtree.go:Delete", "iptree/iptree.go:DeleteByNet,DeleteByIP", "uintX/iptree8/iptree.go:DeleteByNet,DeleteByIP", "domaintree/domaintree.go:Delete,DeleteSubdomains", "dltree/dltree.go:Delete,RawDelete"]}
{"id": "C95", "title": "Goroutines that take keys by deleting them never take the same one twice", "statement": "In the setting of C94, when a deletion reports success and an earlier deletion, by any goroutine, was of the same key, then between the two somebody inserted there (the same key, for the IP trees and DeleteSubdomains something at or below it). So the flag can be used to hand out work: without an insertion in between exactly one deletion of a key succeeds. Without the lock this is false.", "quantifier": "all histories before, any number of goroutines, all programs that may depend on flags and lookups, all interleavings, all keys; numtree, strtree, iptree, generated IP trees, domaintree (Delete and DeleteSubdomains), dltree", "why_tests_cant": "a double claim shows up only in a particular schedule", "anchors": ["numtree/node32.go:Delete", "numtree/node64.go:Delete", "strtree/strtree.go:Delete", "iptree/iptree.go:DeleteByNet,DeleteByIP", "uintX/iptree8/iptree.go:DeleteByNet,DeleteByIP", "domaintree/domaintree.go:Delete,DeleteSubdomains", "dltree/dltree.go:Delete,RawDelete"]}
{"id": "C96", "title": "UpdateDescendants on shared iptrees", "statement": "Goroutines share an iptree. Under a read-write lock, UpdateDescendants may be called with the lock for writing beside lookups and Enumerate loops with the lock for reading: every answer and listing is that of a moment between the updates, with the values the callbacks asked for, no update is lost, nobody fails, nobody writes a node that another goroutine touches at that moment, other trees stay as they are, and all goroutines come to their end. With a shared variable, a goroutine may update trees it has started itself and not yet stored in the variable while others read the published ones, with the same promises. Without the lock a listing can show an update half done.", "quantifier": "all histories before with insertions, deletions and updates, any number of goroutines, all programs that may depend on what was seen, all callbacks, all interleavings; updates of an absent IPv6 network of 64 bits or more with stored networks in both halves excluded (C43)", "why_tests_cant": "UpdateDescendants writes nodes that other goroutines may read; whether it does depends on the schedule", "anchors": ["iptree/iptree.go:UpdateDescendants", "iptree/iptree.go:InsertNet,InplaceInsertNet,DeleteByNet,GetByNet,Enumerate", "numtree/node32.go:FindNode,Enumerate", "numtree/node64.go:FindNode,Enumerate"]}
{"id": "C97", "title": "In-place insertion into trees that share nodes: iptree, dltree, domaintree", "statement": "After InsertNet or DeleteByNet the old and the new iptree share nodes, also those of the nested trees that hold IPv6 networks longer than 64 bits. InplaceInsertNet or InplaceInsertIP into any held tree, shared or not, never panics (the \"invalid IPv6 tree\" panics included); that tree then shows the networks it showed before and the new one; every other held tree shows what it showed before or that with the same network inserted, never anything else, and the latter only if both trees come from the same NewTree. Trees of an origin that is never modified in place show exactly what their own calls made. For dltree and domaintree there is no such limit: a tree can lose a label, and a whole branch of names, through an insertion into another tree.", "quantifier": "iptree: all histories of InsertNet, InsertIP, DeleteByNet, DeleteByIP, InplaceInsertNet and InplaceInsertIP on any number of trees started with NewTree with no exclusivity condition, all networks, all value types; dltree, domaintree: concrete histories", "why_tests_cant": "which nodes two trees share, in the outer tree and in the nested ones, depends on the whole history of both", "anchors": ["iptree/iptree.go:InplaceInsertNet,InplaceInsertIP,InsertNet,InsertIP,DeleteByNet,DeleteByIP", "numtree/node32.go:InplaceInsert,inplaceInsert", "numtree/node64.go:InplaceInsert,inplaceInsert", "dltree/dltree.go:InplaceInsert", "domaintree/domaintree.go:InplaceInsert"]}
{"id": "C98", "title": "In-place insertion into generated IP trees that share nodes (uintX/iptree8..64)", "statement": "After InsertNet or DeleteByNet the old and the new tree share nodes, of the outer trees and of the nested trees that hold all IPv6 networks. InplaceInsertNet or InplaceInsertIP into any held tree, shared or not, never panics; that tree then shows the networks it showed before and the new one; every other held tree shows what it showed before or that with the same network inserted, never anything else, and the latter only if both trees come from the same NewTree. Trees of an origin that is never modified in place show exactly what their own calls made.", "quantifier": "all histories of InsertNet, InsertIP, DeleteByNet, DeleteByIP, InplaceInsertNet and InplaceInsertIP on any number of trees started with NewTree with no exclusivity condition, all networks in any spelling, all value types", "why_tests_cant": "which nodes two trees share, in the outer tree and in the nested ones, depends on the whole history of both", "anchors": ["uintX/iptree8/iptree.go:InplaceInsertNet,InplaceInsertIP,InsertNet,InsertIP,DeleteByNet,DeleteByIP", "uintX/iptree8/node64s.go:InplaceInsert,inplaceInsert", "uintX/iptree8/node64.go:InplaceInsert,inplaceInsert", "uintX/iptree8/node32.go:InplaceInsert,inplaceInsert"]}
{"id": "C99", "title": "What in-place insertion can and cannot do to red-black trees that share nodes", "statement": "strtree and dltree: after any history of Insert, Delete and InplaceInsert calls (dltree: also their Raw variants), on trees that share nodes or not and with calls that panicked and were recovered from, a Get that finds a value finds one that was given to Insert or InplaceInsert under an equal key or label (or nil), and a listing pairs every key or label only with such values. Nothing more is safe once InplaceInsert is called on a tree that shares nodes with another: there are histories of a few calls, all of which return, after which a key is listed twice, a further InplaceInsert panics, a further copy-on-write Insert panics, and Get and Enumerate never return because the nodes form a cycle. dltree and domaintree panic in the same way.", "quantifier": "first part: all histories of Insert, Delete and InplaceInsert, returning or panicking, on any number of strtrees or dltrees with no exclusivity condition, all comparisons of strtree that order the keys, all keys and value types; second part: concrete histories, with every bound on the number of steps", "why_tests_cant": "the first part is about every history of shared trees, however damaged their shape; a test cannot tell a call that never returns from a slow one", "anchors": ["strtree/node.go:inplaceInsert,insert,single,double,get,enumerate,del", "strtree/strtree.go:InplaceInsert,Insert,Get,Enumerate", "dltree/node.go:inplaceInsert,insert", "domaintree/domaintree.go:InplaceInsert,Insert"]}
{"id": "C100", "title": "In-place insertion into shared red-black trees harms no tree of another origin", "statement": "strtree, dltree, domaintree: the damage that InplaceInsert does to trees that share nodes (lost or repeated keys, panics, cycles of nodes, C77, C97, C99) never leaves the trees that come from the same starting tree. After any history of calls that returned or panicked and were recovered from, a tree from a starting tree whose own descendants were used with care (in-place calls only with exclusive access) answers Get and Enumerate exactly as its own chain of calls says, whatever was done to trees of other origins; and every further such call on it returns without a panic.", "quantifier": "all sets of carefully used starting trees; all histories of Insert, Delete, InplaceInsert and their variants on any number of trees, with no condition at all on the calls on trees of other origins except that they returned or panicked (panics recovered by the caller); all keys, labels, names and value types; all comparisons of strtree that order the keys", "why_tests_cant": "the other trees may have any shape, also cyclic, and calls on them may relink any node they reach; the claim is that no such node ever belongs to a tree of another origin", "anchors": ["strtree/node.go:inplaceInsert,insert,del,single,double", "strtree/strtree.go:InplaceInsert,Insert,Delete", "dltree/node.go:inplaceInsert,insert,del", "dltree/dltree.go:InplaceInsert,RawInplaceInsert,Insert,RawInsert,Delete,RawDelete", "domaintree/domaintree.go:InplaceInsert,Insert,Delete,DeleteSubdomains"]}
{"id": "C101", "title": "Which values a domaintree can give, however its trees share nodes", "statement": "domaintree: after any history of Insert, InplaceInsert, Delete and DeleteSubdomains on any number of trees that may share nodes, in which calls may also panic with the caller recovering, a Get that finds a value finds one that a call which returned stored under the name asked for or under an ancestor of it (not the root domain), and every key Enumerate lists parses to a domain for which a call that returned stored the value it is listed with. A value never turns up under an unrelated name. More does not hold once InplaceInsert is called on a tree that shares nodes: a tree may list a domain twice, and the tree returned by Delete may still find the deleted name with an older value.", "quantifier": "all histories with no exclusivity condition, with names made by MakeNameFromString; all names, values and value types; all trees held at the end; the last part is a concrete history", "why_tests_cant": "it is about every history and every damaged shape the trees can get into, including memory left by calls that panicked in the middle", "anchors": ["domaintree/domaintree.go:Insert,InplaceInsert,Get,Enumerate,Delete,DeleteSubdomains,getBranch,copyBranch", "dltree/node.go:insert,inplaceInsert,del,get"]}
{"id": "C102", "title": "Trees of different origins do not see each other at all", "statement": "All trees (strtree, dltree, domaintree, numtree, iptree, generated IP trees): take any history of calls on any number of trees, with no condition on it. In-place calls may be made on trees that share nodes with others, arguments may be malformed, calls may panic and be recovered from, trees may be damaged until a search runs forever. Leave out of it every call on a tree that does not come from one chosen starting tree. Then everything a caller can see of the trees that come from that starting tree stays the same: every look-up and enumeration gives the same answer, every deletion reports the same, every insertion returns or panics alike, and a call that would run forever does so in both cases. Applied to the prefixes of a history this covers the results of all calls made in it.", "quantifier": "all histories of calls (returned or panicked and recovered) with no legality condition; every starting tree; every tree that comes from it; all arguments and value types; every bound on loop turns; any comparison function for strtree", "why_tests_cant": "it compares two executions for every possible history, including all damaged shapes; a test compares finitely many pairs", "anchors": ["strtree/strtree.go:Insert,InplaceInsert,Delete,Get,Enumerate", "dltree/node.go:insert,inplaceInsert,del", "domaintree/domaintree.go:Insert,InplaceInsert,Delete,DeleteSubdomains", "numtree/node32.go:Insert,InplaceInsert,Delete,Match", "iptree/iptree.go:InsertNet,InplaceInsertNet,DeleteByNet,GetByNet,Enumerate", "uintX/iptree8/iptree.go:InsertNet,InplaceInsertNet,DeleteByNet,GetByNet,Enumerate"]}
{"id": "C103", "title": "Goroutines on trees of different origins need no synchronisation, whatever they do", "statement": "All trees (strtree, dltree, domaintree, numtree, iptree, generated IP trees): after any history of calls (no condition: in-place calls on trees that share nodes, malformed arguments, recovered panics, damaged trees), any number of goroutines work at the same time without locks, each on the trees that come from a starting tree of its own and on trees it starts itself. A goroutine may use copy-on-write and in-place calls and queries in any order, on trees that share nodes with each other, recover from panics, and decide what to do next by what it has seen. However their memory accesses interleave, each goroutine sees exactly what it sees when the others do nothing: the same answers, the same calls panic, and it ends after as many accesses or runs forever as it does alone. No two goroutines are ever about to access the same memory cell, so there is no data race. The condition is needed: two goroutines on trees of the same starting tree can see each other's in-place calls.", "quantifier": "all histories without condition; any set of goroutines with different origins; all answer-dependent jobs; all schedules of single memory accesses; one memory with one allocator; all values, all loop bounds, any comparison function for strtree", "why_tests_cant": "the schedules, the histories and the jobs are unbounded; the race detector sees only the interleavings that happen", "anchors": ["strtree/strtree.go:Insert,InplaceInsert,Delete,Get,Enumerate", "dltree/node.go:insert,inplaceInsert,del", "domaintree/domaintree.go:Insert,InplaceInsert,Delete,DeleteSubdomains", "numtree/node32.go:Insert,InplaceInsert,Delete,Match", "iptree/iptree.go:InsertNet,InplaceInsertNet,DeleteByNet,GetByNet,Enumerate", "uintX/iptree8/iptree.go:InsertNet,InplaceInsertNet,DeleteByNet,GetByNet,Enumerate"]}
{"id": "C104", "title": "Trees may be handed from goroutine to goroutine without locks", "statement": "All trees (strtree, dltree, domaintree, numtree, iptree, generated IP trees): any number of goroutines start trees, derive trees by copy-on-write calls, insert in place, ask, and pass trees to each other through channels, without locks and deciding what to do next by the answers and by which channels are empty. The only condition is that an in-place insertion is made on a tree that shares its starting tree with no other tree that any goroutine holds or that is on its way in a channel. Then, however the memory accesses interleave: no call panics; every answer is right for the calls that made the tree asked, whichever goroutines made them; trees held between calls and trees on their way give right answers at any time; no goroutine is about to write a cell another one is about to access, so there is no data race; and no goroutine puts off the end of another one's call. A rule each goroutine can keep to by itself is enough: insert in place only into a tree you started or received over a channel used only to give trees away, or derived from such a tree, if since then no tree of the same origin has been sent and kept and you hold no other tree of that origin any more (so `t = t.Insert(k, v)` in a loop keeps the right to insert in place); give over such a channel only trees you could insert in place into. The rule is needed: a goroutine that goes on inserting in place into a tree it has sent changes the answers of the receiver.", "quantifier": "all sets of goroutines and channels; all answer-dependent jobs; all schedules of single memory accesses, call starts and ends and channel uses; one memory with one allocator; all values and keys", "why_tests_cant": "the schedules, the jobs and the number of goroutines are unbounded; the race detector sees only the interleavings that happen", "anchors": ["strtree/strtree.go:Insert,InplaceInsert,Delete,Get,Enumerate", "dltree/node.go:insert,inplaceInsert,del", "domaintree/domaintree.go:Insert,InplaceInsert,Delete,DeleteSubdomains", "numtree/node32.go:Insert,InplaceInsert,Delete,Match", "iptree/iptree.go:InsertNet,InplaceInsertNet,DeleteByNet,GetByNet,Enumerate", "uintX/iptree8/iptree.go:InsertNet,InplaceInsertNet,DeleteByNet,GetByNet,Enumerate"]}
{"id": "C105", "title": "The goroutine left behind by a panicking callback of UpdateDescendants does no harm, unless the client inserts in place", "statement": "If the callback given to UpdateDescendants panics and the client recovers, the goroutines that fill the channels of the broken loops are still there and read the tree up to their next send. The client goes on: it derives trees from the ones it holds, the updated one included, starts trees, inserts in place into trees it started since, and asks. However the steps of the client and of these goroutines interleave: nothing else panics; the client is never stuck and comes to its end; it never changes a field a goroutine is about to read, also not during UpdateDescendants itself; whether the call panicked and which calls of the callback were made depends only on the tree's listing before; all later answers and all trees held are right, the call standing for an update in which the callback asks for no change from the panic on. The exception is needed: an insertion in place into the tree on which the callback panicked, even if nobody else holds it, may change the children of a node the goroutine is reading (a data race).", "quantifier": "all histories, networks, callbacks (answering from all calls so far), points of panic, later scripts; all schedules", "why_tests_cant": "the race between a recovered client and a goroutine it does not know of shows only in some schedules; tests use callbacks that return", "anchors": ["iptree/iptree.go:UpdateDescendants", "iptree/iptree.go:updateNode64", "numtree/node32.go:Enumerate", "numtree/node64.go:Enumerate"]}
{"id": "C106", "title": "A callback of UpdateDescendants may ask the trees while they are updated", "statement": "The callback given to UpdateDescendants may ask any tree the client holds, the one being updated included, choosing further questions and its result by the answers. The tree being updated is held by the client alone. However the steps of the caller and of the goroutines that fill the channels interleave: nothing panics; nobody is stuck; the call ends with no goroutine left; the caller never changes a field a goroutine is about to read. The answers in the m-th call of the callback are those of trees in which the changes asked for by the calls before are made, and no others. If the network is stored, the calls are those on the networks strictly below it, in listing order, each with its value. In the end the changes asked for are made in the updated tree, and every tree shows its networks.", "quantifier": "all histories, networks, callbacks (asking any number of questions, answering from all answers and calls so far); all schedules", "why_tests_cant": "the tree is read by the callback, read by goroutines and written by the caller at the same time; tests use callbacks that ask nothing, and see few schedules", "anchors": ["iptree/iptree.go:UpdateDescendants", "iptree/iptree.go:updateNode64", "iptree/iptree.go:GetByNet", "iptree/iptree.go:Enumerate"]}
{"id": "C107", "title": "Trees may be drawn by Dot while other goroutines work from them", "statement": "Dot of numtree, strtree and dltree only reads. Goroutines that derive trees from shared trees, read them, and insert in place into trees of their own may call Dot on any tree they hold, in every interleaving: nothing panics, no call fails to end, nobody writes a cell that existed when the goroutines started, and the shared trees still show what they showed. Every drawing has the form of C51 (a nil dltree gives no lines), and the entries it shows are exactly those left by the calls that made the tree drawn, each once.", "quantifier": "all histories, scripts, numbers of goroutines, schedules; all trees (numtree, strtree with any lawful comparison, dltree)", "why_tests_cant": "Dot is tested on one finished tree by one goroutine; sharing of nodes between versions and interleavings are unbounded", "anchors": ["numtree/node32.go:Dot", "numtree/node64.go:Dot", "strtree/node.go:dot", "strtree/strtree.go:Dot", "dltree/node.go:dot", "dltree/dltree.go:Dot"]}
{"id": "C108", "title": "cost of drawing a tree", "statement": "Whatever calls made a tree with n entries, Dot reads at most n nodes in strtree, n nodes and the tree object in dltree, 2n nodes in numtree, and changes and allocates none. The drawing has at most 3n+1 lines (strtree, dltree), 6n+1 lines (numtree), however many entries were deleted before.", "quantifier": "all trees reachable by any history", "why_tests_cant": "a bound for all tree sizes, shapes and orders of insertion and deletion", "anchors": ["numtree/node32.go:Dot", "numtree/node64.go:Dot", "strtree/node.go:dot", "dltree/node.go:dot", "dltree/dltree.go:Dot"]}
{"id": "C109", "title": "GetLabel at any offset", "statement": "For a name made from text, with the labels given by GetLabels, GetLabel at the offset where a label begins (the sum of the lengths of the labels before, one more for each) gives that label and the offset where the next begins, 0 after the last. At a negative offset, or one not below the sum for all labels, it gives an empty label and -1 (the root name at offset 0: 0). At an offset inside of a label the byte there is taken as a length: if it is 0 or above 63 the result is an empty label and -1, otherwise the bytes that follow. The next offset is always 0, -1, or larger than the offset asked for and inside of the name, so walking from any offset ends.", "quantifier": "all names made from text, all offsets", "why_tests_cant": "tests ask at the offsets of a few names; offsets inside of labels depend on the bytes", "anchors": ["domain/name.go:GetLabel"]}
