# Formal model of infobloxopen/go-trees in Lean 4

## Layers

* **Spec** (`Verif/Spec/*.lean`): tiny, model-independent specifications.  A numeric prefix is a `List Bool`
  (its significant bits, most significant first); "contains" is `List.IsPrefix`; an abstract tree is a
  finite map `List Bool → Option V` (numtree, iptree), a sorted association list (strtree, dltree) or a
  map from label lists (domaintree).
* **Functional model** (`Verif/Num`, `Verif/RB`, `Verif/Domain`, `Verif/DL`, `Verif/DomTree`, `Verif/IP`):
  the Go functions as total computable functions.  A mutation through a pointer to a freshly allocated
  node returns the new value; loops are fuel-indexed recursions whose fuel is proved sufficient.
  The red-black loops are modelled on a zipper that follows the Go variables `gp`, `g`, `p`, `n`
  iteration by iteration.
* **Heap model** (`Verif/Heap`, `Verif/NumHeap`, `Verif/RBHeap`, ...): the same functions on an explicit heap
  of nodes with addresses, nil dereference = panic, allocation, pointer equality and field writes, written
  statement by statement after the Go code.  Refinement theorems connect it to the functional model and give
  the aliasing properties (copy-on-write persistence, in-place footprints, concurrent readers).
* **Concurrency model** (`Verif/Chan`): the `Enumerate` goroutine and its consumer as a transition system.
* **Concurrency with memory** (`Verif/Pipe`): a caller working on the heap beside the goroutines it has started, which read the heap, send
  over unbuffered channels and start further goroutines.

The `uintX/*` packages are generated from one template and are textually the same algorithms
with other value types; they are covered by the models being polymorphic in the value type, except
`uintX/iptree*/iptree.go`, which differs and is modelled separately.

## Plan per property

| id | model | proof |
|----|-------|-------|
| C01-C03 | functional numtree over `BitVec w` | induction on the tree with the prefix invariant; history by induction on the op list |
| C04 | same | pre-order list sorted by (masked key, bits) |
| C05 | heap numtree | all writes hit fresh addresses; induction over histories with many live roots |
| C06 | heap numtree | loop invariant with zipper of address-annotated trees |
| C07 | API wrappers | case split on the clamp; results depend on `bitsOf key bits` only |
| C08, C09 | functional numtree | invariant; uniqueness of the well-formed tree for given entries |
| C10 | mask tables, `clz` | whole-table kernel evaluation lifted by a lemma; bitwise characterisation of `clz` |
| C11, C12, C16, C17 | functional red-black zipper | in-order list is `insert`/`erase` of the sorted list |
| C13, C14, C18 | heap red-black tree | refinement to the zipper; fresh-write frame; no nil dereference |
| C15 | functional red-black zipper | colour and black-height invariant on the zipper |
| C19 | API wrappers | case split |
| C20-C25 | byte-level parser/printer | induction over the byte list with the escape state; 256-case kernel checks for byte arithmetic |
| C26-C28 | label tree = red-black model with (length, bytes) order | instance of C11-C15; C28 is expected false (errors are ignored): prove the negation and the part that holds |
| C29-C32, C36 | trie of label trees | induction on the label list; root value is expected unreachable by Get |
| C33, C34 | domaintree on the heap | C34 expected to fail on trees built by Insert (nil branches) |
| C35 | array-index model of getBranch | expected false at 127 labels |
| C37-C42, C44, C46 | functional iptree over bytes | corollaries of numtree theorems plus the 64-bit split lemma |
| C43, C45 | heap iptree | in-place update through the enumeration; frame |
| C47, C48 | functional uintX iptree | C48 expected false for IPv6 |
| C49 | channel transition system | invariant over all schedules |
| C50 | heap model with small steps | frame: writer only writes fresh cells |
| C51 | queue loop of Dot, lines as data | BFS numbering invariant; the lines determine the tree |
| C52, C54 | path strings as byte lists, `filepath` for Unix | induction over components; Clean characterised by component rules |
| C53 | functional uintX iptree | listing composed from two numtree listings |
| C55 | nested maps | induction on the selector |
| C56 | channel transition system with a quitting caller | same invariant; blocked states characterised |
| C57 | memory programs of any number of threads, small steps | each thread writes only cells it made, so it proceeds as alone; `C57_*_one_supply`: the same with one supply of addresses for all, by a one-to-one renaming to each thread's run alone; no cell a thread writes is one another thread is at |
| C58 | dltree on the heap (`Tree` and node cells) | as C13/C14: copy-on-write calls write only new cells |
| C59 | generated IP trees on the heap (`Tree`, node32, node64 and node64s cells) | as C42/C45; in-place results agree with InsertNet up to the spelling of the stored network |
| C60 | `UpdateDescendants` on the heap; histories with updates among the in-place calls | stored values of a chain given by a relation on network maps; every write replaces a cell by one with the same key, children and kind |
| C61 | numtree, iptree, uintX memory programs; count of cell accesses and allocations of an execution | every path of a program with loop bound f stays within a multiple of f, and a program that ends with a small bound does the same with a larger one; the smallest sufficient bound comes from the height |
| C62 | strtree, dltree, domaintree memory programs | the same, with heights from the red-black balance; every label tree of a domaintree tree has at most as many nodes as there are stored domains, since every node has a stored domain at or below it |
| C63 | caller and goroutines on shared memory with channels (`Verif/Pipe`); scripts with nested loops | what a goroutine sends is fixed by the cells it may read; the caller keeps these cells until the channel is closed |
| C64 | `UpdateDescendants` as a caller beside numtree's goroutines (`Verif/Pipe/UpdateModel.lean`), one goroutine per nested tree | the loop bodies change no field the goroutines read, so the nodes sent are those of the sequential walk and every schedule ends like the run of C60 |
| C65 | several callers on shared cells, each with its own goroutines and new cells (`Verif/Pipe/Crew.lean`) | no caller writes a cell that was there at the start, so each is always where it would be alone after as many of its own steps; C63 applies to each |
| C66 | as C20 (`Verif/Domain`) | every text splits into characters and a rest that is empty, starts with a dot, or starts with a broken escape; the loop is computed on each form |
| C67 | as C22 | every text splits into whole labels, a piece of a label, and such a rest; marking and collecting are computed on each form |
| C68 | a reflected value is a string, a Name, a pointer to a value, a nil pointer, the zero Value or something else | cases |
| C69 | all of etc on a file system of directories and files (`Verif/Etc/Files.lean`, `Execute.lean`); YAML and text/template are arbitrary functions | the recursion equals a sequence of steps over the sorted catalog, since no step changes the catalog; every step changes its own target only |
| C70 | as C69, with `load`, `main` and the flags | cases |
| C71 | the text of Dot (`Verif/Dot/Text.lean`), `%#v` as a parameter, `%q` as anything that quotes, `strconv.Quote` in particular | a reader for the words of DOT (`Verif/Spec/Graphviz.lean`) applied to the text; quotes behind a backslash never end a label |
| C72 | as C71 | words are cut back into lines, labels into keys and values; holds for numtree and uintX, for strtree and dltree only if values are not nil and their texts do not contain ` v: "` (**false** otherwise, witness) |
| C73 | the insertion loop iteration by iteration (`Verif/RB/Steps.lean`) | before a leaf the loop runs as with a comparison that finds the new key equal to itself; after a leaf an invariant that the loop cannot leave; rotations keep the listing and the way to the key |
| C74 | lookups with both results (`Verif/Miss/Model.lean`), an `interface{}` may be a nil pointer to a node | cases; **false** for numtree `Match` and iptree lookups on trees without networks of the family (witness), the exact results are proved |
| C75 | `Enumerate` of dltree up to a panic (`Verif/DL/Trace.lean`) | the walk equals sending the in-order list until a label cannot be printed; C25 says which |
| C76 | slices, `append`, `CIDRMask`, `IP.Mask` over named arrays, beside a client that owns what it was given (`Verif/Own`) | the code knows the content of its own arrays only (`Safe`); invariant over all interleavings |
| C77 | memory model of numtree, histories without `Book.Legal` (`Verif/Heap/Shared`, `Verif/NumHeap/Shared`), and with origins (`Verif/NumHeap/KinHistory`); strtree: memory model, one history | the call writes at most one old node, and the subtree there becomes the subtree with the insertion made; every tree through that node gets the insertion by well-formedness; strtree by computation |
| C78 | memory models and histories of C05, C13, C58, C45, C59, C33; reachability `Held` (`Verif/Heap/Held`) | everything reachable is in the represented tree (`held_tree`, `held_label`, `keeps_spec`); node counts from the shape of the trees; glue nodes hold no value; nodes of domaintree below the root have a value somewhere below |
| C79 | functional models of the six packages; spec `Overlay`, `OverlayBy` (`Verif/Spec/Merge`) | what the history of the loop leaves (`storeAll_or`, `stored_hit`), completeness of Enumerate (C04, C12, C27, C32, C39), canonical keys are injective, keys of listings parse back; listings in a strict order are determined by their entries (`sorted_unique`) |
| C80 | `Verif/Num/Node`, `Verif/NumHeap/Node` (Children, FindNode, assignment to Value as calls of a history); spec `Leaves` (`Verif/Spec/Subtree`) | subtrees of well-formed trees are well-formed and hold the entries within their prefix; the top prefix is the meet of the entries; assignment equals insertion under the node's key; the generic history and goroutine theorems instantiated at `nodeImpl` |
| C81 | `Verif/Heap/Publish` (a variable, a lock, goroutines with programs that may depend on answers, small steps) over the heap models; spec `Board` (`Verif/Spec/Publish`) replays the record of events on chains of calls | invariant: every root in the variable or held outside the lock lies in memory as it was at an earlier time and has not changed since; the lock holder writes only cells made since it last stored |
| C82 | as C81, for goroutines that only change under the lock and ask (`Verif/Heap/Atomic`); spec `Atomic` | the record of events determines the order: stores and loads; every answer is that of the tree loaded, which shows the changes stored before |
| C83 | `Verif/Heap/GiveUp` (histories with calls cut off after `k` memory accesses, over the heap models); `Verif/RBHeap/Panic` (strtree calls whose comparison function may panic), `Verif/RBHeap/Try` (clients that recover) | every access of a call keeps what is not its own; a call with a panicking comparison does some of the accesses of the full call (`Cut`); `C83_inplace_loses` shows why an in-place call given up costs its tree |
| C84 | `Verif/Num/Zero` (histories from a zero node, with an invariant for a root that holds nothing), `Verif/NumHeap/Zero` (the same on memory), `Verif/RBHeap/Zero` (strtree calls with a nil comparison function) | each numtree function keeps "well formed, or a valueless root of 0 bits over well-formed branches"; the strtree calls are run symbolically up to the panic |
| C85 | `Verif/IPHeap/CbPanic` (UpdateDescendants with a callback that may panic, over the heap model), `Verif/IPHeap/Recover` (clients that recover); spec `updateUntil` in `Verif/Spec/Until` | a run that breaks off has done the writes of the run in which the callback declines from there on (`BreaksOff`), so C60 applies |
| C86 | iptree (`Verif/IP/*`) and the generated trees (`Verif/UIP/*`), run side by side; hollow networks are defined from the calls alone (`lastNet`) | both histories denote maps from networks to values; equal maps have equal listings and lookups, and the maps part at the first deletion of a hollow network |
| C87 | `Verif/Heap/Guard` (one tree, a read-write lock, goroutines with programs that may depend on answers, small steps) over the heap models; spec `GBoard` (`Verif/Spec/Guard`) replays the record of events on the chain of calls | invariant: whoever has the lock for writing is alone and only writes nodes of the shared tree or new ones; the tree is what the board says except in the middle of a change |
| C88 | the machines of C81 and C87 with infinite schedules (`Verif/Heap/Fair`) | what a goroutine has before it gets smaller with every step it makes (well-founded, answers may branch infinitely); after finitely many steps nothing changes any more, and then the progress clause with fairness leaves only the end. Loop bounds depend on the number of calls, not on the length of the schedule |
| C89 | scripts as in C63 with loops that may be left after any round (`Verif/Pipe/Break.lean`); goroutines left behind keep running | as C63, but channels may stay open at the end: the cells a goroutine left behind may read are never written; waiting goroutines are counted by what their channels still hold. In-place insertion after leaving: a reachable state with a read and a write of the same node pending |
| C90 | C81's setting with channels: goroutines (`RAct`, `Verif/Pipe/Ranging.lean`) also call `Enumerate`, which starts goroutines behind channels, and receive; a channel is received from only by the goroutine that opened it | every state is projected to one of C81 in which `Enumerate` is a single read of the whole listing; the goroutines behind channels read memory that has not changed since. The end: a well-founded order that every step changing the state decreases. For strtree, domaintree and dltree the bound of the model must suffice for the number of steps, or (`_ends`) for the calls made. Calling `Enumerate` too soon: a reachable state with a read and a write of the same node pending |
| C91 | C87's setting with channels (`LAct`, `Verif/Pipe/Locked.lean`): goroutines with the lock also call `Enumerate` and receive; the goroutines behind channels step at any time | an invariant: while a channel of a goroutine is not seen closed, that goroutine has the lock, and no step writes below the memory its channels read (copy-on-write calls write new nodes only). The end: a well-founded order as for C90. For strtree, domaintree and dltree the bound of the model must suffice for the number of steps, or (`_ends`) for the changes made. A loop left early, and receiving without the lock: reachable states as witnesses |
| C92 | every tree of a history carries the flag of the call that made it (`OImpl.reporting`, `Verif/Heap/Report.lean`); right flags are given by `NumReports`, `KVReports`, `NetReports`, `UNetReports`, `DomReports`, `LabelReports` (`Verif/Report/Trees.lean`) in terms of the last writes | the heap models with the flag are lawful in the sense of `OImpl.Lawful`, hence `history_reports`; memory and trees are those of the model without flags (`exec_plain`) |
| C93 | C81's setting over the model with flags; `askReport` adds the question for the flag to the lookups | `hub_sound_follows` for the model with flags |
| C94 | C87's setting over the model with flags | `guard_sound` for the model with flags |
| C95 | `ClaimsOnce` on the record of C94's setting | from C94: a key deleted and not put back has no last write, so the flag is false. Without the lock: a concrete schedule in which two goroutines get the same key |
| C96 | the settings of C81, C87, C88, C90 and C91 over the iptree memory model with updates (`ipuImpl`, as for C60): `UOp.update` is an in-place change | the general theorems for these settings, with `ipuImpl_lawful`; what answers are right is `UpdRight` (from `NetMeans`). A half-done update seen without the lock: a concrete schedule |
| C97 | memory model of iptree, histories without exclusivity, origins kept (`KinRun`, `Verif/Heap/Kin`); dltree and domaintree: memory models, one history each | an invariant gives every node of a nested tree the key it is nested under (`Homed`, `Verif/IPHeap/Homes`), so a nested node is never shared between nested trees of different keys; the call writes at most one old node of a numtree, and the trees through that node get the insertion, in the outer tree through the same key (`Verif/IPHeap/Spread`); dltree and domaintree by computation |
| C98 | memory model of the generated IP trees (`Verif/UIPHeap`), histories without exclusivity, origins kept (`KinRun`) | as C97, with the prefix a nested tree belongs to as its home (`Verif/UIPHeap/Homes`, `Verif/UIPHeap/Spread`); where only the nested tree is written, every tree keeps its own spelling of the outer network, and what is shown does not depend on the spelling |
| C99 | memory models of strtree and dltree (`Verif/RBHeap`, `Verif/DLHeap`), histories without exclusivity and with recovered panics; domaintree for the panics | a property of every cell kept by every statement whatever the shape of the memory, also at the moment of a panic (`Verif/Heap/Tidy`, `Verif/RBHeap/Tidy`, `Verif/DLHeap/Tidy`): key and value were inserted together; the loops of insert and inplaceInsert end at a cell with an equal key, del copies key and value together. Panics by evaluation of concrete histories; non-termination by a cycle of nodes along which the comparisons lead, for every step bound |
| C100 | memory models of strtree, dltree and domaintree, histories where exclusivity is asked only of the calls on trees of chosen origins; the calls on the others are unrestricted and may damage their trees | every statement of every call keeps a set of cells closed under pointers and writes only in it (`Stays`, `Verif/Heap/Confine`, then `Verif/RBHeap/Confine`, `Verif/DLHeap/Confine`, `Verif/DomHeap/Confine`), whatever the shape of the memory; so the cells of the other origins never meet those of the chosen ones, for which the history theorems of C13, C58, C33 go through. A call on another tree may also panic with the caller recovering: the memory is then as the call left it. A call that never returns ends the history, as it blocks the program |
| C101 | memory model of domaintree, histories without exclusivity and with recovered panics (`OStore.execR`) | a record outside memory gives every object its kind and the path of labels it was made for (`Cls`, `Verif/DomHeap/Paths`); every statement keeps the record and the rule that a label-tree node of path `p` with key `k` points to a `Node` of path `p ++ [k]` and that a `Node` of path `p` holds only values stored under `p` (`Tri`). For the label trees this needs that the insertion loops end at a node with an equal key and that deletion moves key and value together, also if the call panics (`Verif/Heap/Typed`, `Verif/RBHeap/Typed`) |
| C102 | memory models of all six trees, histories without any condition and with recovered panics (`OStore.execR`) | two runs are compared: a relation between the addresses of one memory and those of the other that is one-to-one (`One`) is kept by every statement of every program, because programs compare pointers with nil and with each other but never look at addresses (`Prog.Sim`, `Verif/Heap/Blind`, one lemma per program). The cells of the other origins are a third, disjoint part of the first memory (`Sep`); a call on one side leaves the other side as it is (`Verif/Heap/Alone`) |
| C103 | memory models of all six trees; goroutines take turns, one memory access at a time, on one memory with one supply of addresses (`Team`, `Verif/Heap/Team`); a goroutine is a tree of calls whose branches depend on what it has seen, with panics recovered (`Job`, `Verif/Heap/Job`) | after any history every origin has its part of the memory, no pointer leads from one part to another (`Zones`). Each goroutine is kept beside its run alone: its addresses are related one-to-one to those of the run alone, the relations of different goroutines have no address in common, and one access extends them (`Team.Inv`, from `Prog.Sim` of C102). `C103_same_origin` is a case with two goroutines on one origin where the conclusion fails |
| C104 | memory models of all six trees; goroutines with one memory, one supply of addresses and mailboxes (`Relay`, `Verif/Heap/Relay`); a goroutine is a tree of calls, questions and mailbox uses whose branches depend on what it has seen (`Errand`); a turn is one memory access, the start or end of a call, or one use of a mailbox | every tree in memory is, up to the names of addresses, what its calls make alone (`Alike`), every call under way goes on beside the same call alone (`Aloft`, from `Prog.Sim` of C102); addresses of trees of different origins are disjoint, and nodes made by a call under way are its goroutine's only (`RInv`, `Verif/Heap/RelayInv`). The `_rule` theorems prove from a rule each goroutine can check by itself (`Errand.Owns`: trees held are kept in groups of one origin, a group is the goroutine's own until a tree of it is sent) that every schedule meets the condition (`Verif/Heap/RelayOwn`). `C104_needs_rule` is a case where the rule is broken and an answer is wrong |
| C105 | `Verif/Pipe/Rescue` (UpdateDescendants with a callback that may panic, beside its goroutines, `updX`; the client's deferred `recover()`, `Main.rescue`), clients as in C57 (`sessionP`) | every state the panicking call gets into with its goroutines is one of the call whose callback declines from there on, which ends as C64 says; afterwards the client writes new cells only. The race of an in-place insertion is shown by a run (`C105_inplace_races`) |
| C106 | `Verif/Pipe/Asked`, `Verif/Pipe/AskedUpdate` (UpdateDescendants with a callback that is a program asking held trees, beside its goroutines, `updQ`) | the call is compared with calls whose callback asks nothing and takes its results from a list (`replay`): where the list ends nothing is written any more, so the memory in which the m-th questioning is made is the one in which the call with the first m results ends; that one is known from C60 and C64.  A callback that derives trees, or changes trees in place, is not covered |
| C107 | `Verif/Dot/Heap` (the queue loop of Dot on memory, `dotLoopP`; numtree, strtree, dltree), clients and goroutines as in C57 with Dot among the reads | the loop reads what the loop of C51 takes apart (`dotLoopP_spec`) and writes nothing; the nodes shown are those of the tree in another order (`dotLoop_shown`).  The lines are data as in C51; the strings joined are not objects of the memory |
| C108 | `Verif/Dot/Heap`, accesses counted as in C61 and C62 | the loop reads every node below the queue once (`dotLoopP_cost`) and writes at most three lines for a node (`dotLoop_length`); sizes against entries as in C08.  The queue and the text, which Go builds by repeated concatenation, are not counted |
| C109 | domain: `Name.GetLabel` (the slices in it are in range: the offset is below the length, and the end is compared with it before use) | case analysis against the labels written one after the other (`wire`); found missing by a mechanical edit of the model (-1 changed to -2) that no theorem noticed |

In C61 and C62 a cell is a whole object (node or `Tree`).  Reading any field counts as one access, an assignment to one field as
two (the program reads the object and writes it back), so the constants are upper bounds on Go field accesses grouped per object,
not instruction counts.  Work on keys (comparisons, label parsing, masks) and the Go runtime are not counted.

Nothing is classified as not expressible.

## Trusted base

* Lean 4.33.0's kernel and elaborator front end (no `native_decide`, no `bv_decide`, no own axioms, no `sorry`).
* Axioms: every theorem named in MANIFEST.json depends on a subset of `propext`, `Classical.choice`, `Quot.sound`
  (checked with `#print axioms`).
* The transcription of the Go code.  Each model definition cites the file and lines it follows.
* Go semantics as encoded by the models: byte, int and uint arithmetic on the ranges that occur; nil explicit;
  an index out of range or nil dereference is a panic (`none`, or a failed memory program); unbuffered channels
  as rendezvous.
* The behaviour of library functions, written from their documentation: `net.IP.To4`, `net.IPMask.Size`,
  `net.IPNet` values as byte lists, `strings.Compare` style comparisons, `filepath.Clean/Split/Join/Abs/Base/Dir` on Unix,
  `strings.Split`; `os.Stat`, `os.MkdirAll`, `os.Create`, `os.Open`, `ioutil.ReadDir` on a tree of directories and files;
  `strconv.Quote` (`%q` of a string) after its published source with the table of printable characters as a parameter
  (`Verif/Dot/Quote.lean`); C71 and C72 use only that it puts quotes around a text with protected quotes, backslashes and line feeds
  and keeps different strings different (`Quotes`, proved of it in `C71_strconv`).

## What is modelled

| package | functional model | memory model | channels |
|---|---|---|---|
| numtree (32, 64) | all exported functions | all exported functions | Enumerate |
| strtree | all | Insert, InplaceInsert, Get, Delete, Enumerate, Dot (the `Tree` of strtree is its root pointer) | Enumerate |
| domain | all | strings are immutable: none needed | - |
| dltree | all | all exported functions; the node code is that of strtree (same text, other comparison) | Enumerate, RawEnumerate |
| domaintree | all | Insert, InplaceInsert, Get, Delete, DeleteSubdomains, Enumerate | Enumerate |
| iptree | all, UpdateDescendants included | Insert*, InplaceInsert*, Get*, Delete*, Enumerate, UpdateDescendants | Enumerate |
| uintX/* | generic in the value type; iptree separately | generic in the value type; iptree separately | Enumerate |
| etc | all; yaml and text/template as arbitrary functions, the file system as in `Verif/Etc/Files.lean` | none | - |

Not modelled: the formatting verb `%#v` and the table behind `strconv.IsPrint` (parameters of C71 and C72), `Dot` of the unexported nodes of the generated iptrees (not callable from outside), reflection other than what
`MakeNameFromReflection` looks at, the YAML and template libraries, links, permissions and concurrent changes in the
file system etc works on, garbage collection, time, the machine's memory limit, the Go memory model
below sequential consistency.

### Simplifications

* Memory: one cell per node with all its fields; one step reads or writes a whole cell.  The readers' theorems
  (C50) therefore speak about interleavings of whole-cell accesses under sequential consistency; since writers only
  write cells no reader can reach, there are no data races for a weaker memory model to exploit.
* Threads (C57): cells that exist when the threads start are shared.  In `C57_<tree>` new cells are named by the thread that makes them (each
  thread has its own supply of addresses).  In `C57_<tree>_one_supply` there is one memory with one supply, and addresses are given out in the
  order the threads' turns fall; it follows from `Prog.Sim` (the programs only read, write, store and compare addresses, see C102).
  Threads do not pass new trees to each other while they run, except in C104, where they do through mailboxes. A mailbox is a queue
  without bound; a Go channel of any capacity only makes senders wait, which takes schedules away. Receiving from several channels at
  once (`select`) is covered by looking whether a mailbox is empty.
* Goroutines beside a caller (C63, C56 on memory): a step reads or writes one cell, starts a goroutine, or is a send together with the
  matching receive.  Returning from the goroutine function and closing its channel is one step with the last action.  A goroutine reads
  each field when the Go code does (`Leaf`, `chld[0]` and `chld[1]` in three reads).  For strtree, dltree and domaintree the theorems
  say "for all large enough bounds" since sizes are not limited.
* Several callers (C65): as C57 and C63 together.  Every caller has its own supply of new addresses; a caller and the goroutines it started
  see the shared cells and the cells this caller made.  Callers do not hand new cells or channels to each other.
* A shared variable (C81, C82): loading and storing the variable, taking and giving back the lock are single steps (in Go: `atomic.Pointer` or
  `atomic.Value`, and `sync.Mutex`; with a plain variable a load outside the lock is a race of the caller's own).  One supply of addresses: only the holder
  of the lock makes nodes, goroutines not holding it only read.  The steps are sequentially consistent; since a node reached through the variable is never
  written after the store that published it, the order made by the atomic variable and the lock is all the readers need.
* A comparison function that panics (C83) is a function of the two keys for the length of one call; it may be another one at every call.  One that panics
  by other circumstances (at its third use, say) is covered by the histories of calls cut off after any number of accesses.
* After a panic of the callback (C85) the enumerating goroutine of Go stays: it reads on (fields `Leaf` and `chld`) up to the next stored network and then waits forever
  (C56).  The model of C85 has no goroutine; the one of C105 has.  An in-place insertion made while it still reads is a data race (`C105_inplace_races`), so what C85 says of
  in-place insertions after a panic holds only once the goroutine has come to its send, and the client has no way to tell when that is.
* A read-write lock (C87): taking and giving back the lock are single steps; memory is sequentially consistent, and the theorems show that no node is
  written while another goroutine is about to touch it in any such schedule, which is what makes that assumption good for the Go memory model. Read
  locks are granted whenever nobody has the lock for writing. Go lets new readers wait for a waiting writer, which only takes schedules away (the
  programs covered do not take the lock twice, so this cannot deadlock them).
* UpdateDescendants among goroutines of the client (C96): as for C60 the body of its loop runs when a node is sent; the goroutine updating has the tree for itself, so C64
  (the schedule of the goroutines behind the channel does not matter) applies to the call.
* Flags (C92 to C95): a tree of the client carries the flag of the call that made it, so that the client can look at it at any time; in Go it is a second variable.
* Loops carry a bound (fuel) that is proved sufficient, or are recursions on the tree.
* The red-black deletion and insertion loops use a zipper in the functional model; the memory model keeps
  Go's variables and the refinement between the two is proved.
* A callback (`GetLabels`, `UpdateDescendants`) is a function with an explicit state; in C106 it is a program that asks held trees and may remember its calls.
* `interface{}` values are a type parameter.  In iptree the type `subTree64` of nested trees is not exported, so no value a user can
  store has it; the model has a sum type, and that no call returns a nested tree is proved, not assumed (C37).
* UpdateDescendants changes nodes in place; the functional model returns the tree afterwards, the heap model writes the nodes.  In
  the heap model of C60 the body of the loop over the channel runs when a node is sent; C64 models the goroutines and proves that
  every other schedule ends the same way.
* The bytes behind keys (C76, `Verif/Own`): a slice is an array, an offset, a length and a capacity; the code and one client take turns in
  any order, the client writes only arrays it was given.  The trees are not in this memory, only the byte arrays are.  How much spare capacity
  `append` leaves is arbitrary.
* Both results of lookups (C74, `Verif/Miss`): a value of type `interface{}` is nil, a user value, a nested tree or a nil pointer to a node.
* Memory kept alive (C78): counted in cells of the memory models (a `Node`, a red-black node, a `Tree` object); the bytes behind keys and the user's values are not counted.
* Histories without an exclusivity condition (C77, C97, C98, C99, C100, C101, C102): as for C05 and C06 one call after the other; there are no concurrent calls in them.

## Where code and documentation or expectation disagree

Each is proved as a negation with a witness; what does hold is proved beside it.

* C25: `MakeHumanReadableLabel` panics when an upper-case letter falls on output position 252 (`C25_panics_iff`).  Through it `dltree.Enumerate` ends the program if such a label was
  stored with `RawInsert` (C75).
* C28: dltree ignores errors of `MakeLabel`: malformed keys act on the empty label; a key with an unescaped inner
  dot panics.
* C29: `domaintree.Get` never returns the value stored for the root domain, although `Enumerate` lists it.
* C30, C31, C35: `Delete` and `DeleteSubdomains` of a stored name with 127 labels index past an array.
* C34: `domaintree.InplaceInsert` panics below nodes created by `Insert`; `C34_panics_iff` says exactly when, from the calls
  that made the tree (`Closed` in `Verif/Spec/DomClosed.lean`).  Calls that panic leave existing memory alone
  (`C35_panic_safe`; `Prog.crash` is the memory a failing run leaves).
* C43: `UpdateDescendants` on an absent target of 64 bits or more with networks in both halves may treat the
  target as stored, depending on the address bits beyond its prefix length (`C43_absent_either`, `C43_host_bits`); a nil tree or nil
  network panics.
* C48: generated iptree: `DeleteByNet` of an IPv6 network shorter than 64 bits does nothing unless exactly that
  network is stored.
* C72: strtree and dltree print a nil value without the `k:` and `v:` marks, so a tree with the key `nil` and the value nil has the same
  dump as an empty tree; values printing with ` v: "` can be confused with keys as well.
* C74: `Match` on an empty numtree, and so `GetByNet` and `GetByIP` on an iptree without networks of the family, return a nil
  `*Node32` or `*Node64` as the value beside false; as an `interface{}` it is not equal to nil.
* C77: `InplaceInsert` into a tree that shares nodes with another shows there; in strtree the other tree can lose a key it held
  (`C77_strtree_loses_key`).  In dltree it can lose a label and in domaintree a branch (`C97_dltree_loses_label`, `C97_domaintree_loses_names`).
  Later calls can panic, also copy-on-write ones, and Get and Enumerate may never return (`C99_insert_panics`, `C99_inplace_panics`,
  `C99_never_returns`, `C99_dltree_panics`, `C99_domaintree_panics`).
* C83: when the comparison function panics during `strtree.InplaceInsert`, the tree it was called on keeps its old root pointer although nodes below may have been
  turned: entries stored before can be gone (`C83_inplace_loses`).
* C105: after a panic of the callback of `UpdateDescendants` that was recovered, an in-place insertion into that tree races with the goroutine left behind, although the
  client alone holds the tree (`C105_inplace_races`).
* C56: a caller that leaves the loop over `Enumerate()` early leaks the goroutines behind it.

Smaller observations, stated in the theorems concerned: `strtree.Delete` of an absent key returns a restructured copy
rather than the original tree; `Insert` on an equal key keeps the old spelling (C17); a comparison that is not
reflexive makes `strtree.Insert` loop forever and use up memory (C18 assumes reflexivity; C73 says exactly when); `InplaceInsert` on a nil `*strtree.Tree`
panics; `MaxName` = 255 excludes the root byte; a 16-byte IPv4-mapped network with a 16-byte mask is IPv6 while
`InsertIP` of the same address is IPv4 (C40, C41); numtree keeps the caller's insignificant key bits in `Key` (C07);
a trailing dot in an `etc` selector selects the map itself (C55); `etc` without `-d` always stops, although its help marks only `-t` as
required (C70); `etc` never ends if a template name leads into the template directory itself (C69); `Delete(key, 0)` on a zero
numtree node reports a deletion although nothing is stored, and `strtree.Tree{}` panics at its second key although a nil `*Tree` does not (C84).

## Testing the theorems

`seeded/LOG.jsonl` records edits of the model that imitate realistic bugs, the theorems that stopped proving, and
theorems tightened because an edit went unnoticed.  The lines `mech-…` come from two runs over the model files that change one
operator, number, name or order of arguments at a time: of 376 edits 166 did not type-check, 205 made a proof fail, five went
unnoticed.  Of these three are equivalent (defaults of reads that are always in range), one led to C109, and one was
reported by a build that took far too long, probably an interrupted one; repeated, it makes proofs fail (`getlabels-off-minus`).
