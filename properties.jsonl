{"id": "C01", "title": "Conjunction is correct", "statement": "For BDDs f and g of one manager, and_rec(f,g) (and f & g) returns, without undefined behaviour and in finite time, a BDD whose evaluate(x) equals f.evaluate(x) && g.evaluate(x).", "quantifier": "every finite history of manager API calls, every choice of node addresses and random hash keys, every assignment", "why_tests_cant": "the result depends on the whole earlier history through the memo cache and the unique tables, on pointer order and on random hash keys", "anchors": ["src/bdd_mgr.cpp:and_rec", "include/bdd_mgr.h:operator&"]}
{"id": "C02", "title": "Disjunction is correct", "statement": "or_rec(f,g) (and f || g) returns a BDD whose evaluate(x) equals f.evaluate(x) || g.evaluate(x).", "quantifier": "every finite history of manager API calls, every choice of node addresses and random hash keys, every assignment", "why_tests_cant": "same as C01; in particular the memo cache may hold answers of other operations", "anchors": ["src/bdd_mgr.cpp:or_rec", "include/bdd_memo_cache.h:or_symb,xor_symb"]}
{"id": "C03", "title": "Negation is correct", "statement": "negate(f) (and !f) returns a BDD whose evaluate(x) is the complement of f.evaluate(x), and negate(negate(f)) == f as handles.", "quantifier": "every finite history of manager API calls, every choice of node addresses and random hash keys, every assignment", "why_tests_cant": "BDD shapes and histories are unbounded", "anchors": ["src/bdd_mgr.cpp:negate"]}
{"id": "C04", "title": "Exclusive or is correct", "statement": "xor_rec(f,g) (and f ^ g) returns a BDD whose evaluate(x) equals f.evaluate(x) != g.evaluate(x), whatever operations were run before.", "quantifier": "every finite history of manager API calls, every choice of node addresses and random hash keys, every assignment", "why_tests_cant": "depends on which other operations filled the memo cache before", "anchors": ["src/bdd_mgr.cpp:xor_rec", "include/bdd_memo_cache.h:xor_symb"]}
{"id": "C05", "title": "If-then-else is correct", "statement": "ite_rec(f,g,h) returns, without undefined behaviour, a BDD whose evaluate(x) is g.evaluate(x) when f.evaluate(x) holds and h.evaluate(x) otherwise.", "quantifier": "every finite history of manager API calls, every choice of node addresses and random hash keys, every assignment", "why_tests_cant": "the corner cases depend on which variable is the last one of the manager and on the memo cache", "anchors": ["src/bdd_mgr.cpp:ite_rec"]}
{"id": "C06", "title": "Projections", "statement": "projection(v) evaluates to x[v] and neg_projection(v) to !x[v]; projection(v) makes nr_variables() at least v+1 and never changes existing BDDs; add_variable() returns consecutive indices.", "quantifier": "every variable index, every history", "why_tests_cant": "variable tables move in memory when variables are added; all histories", "anchors": ["src/bdd_mgr.cpp:projection,neg_projection,add_variable"]}
{"id": "C07", "title": "Canonicity: handle equality is function equality", "statement": "In one manager, two BDD handles compare equal if and only if their evaluate functions agree on every assignment.", "quantifier": "every finite history of manager API calls, every choice of node addresses and random hash keys, every assignment", "why_tests_cant": "quantifies over all pairs of construction histories and all assignments", "anchors": ["src/bdd_var.cpp:unique_find", "include/bdd_node.h:node_ref::operator=="]}
{"id": "C08", "title": "Results of operations respect the variable order", "statement": "On every root-to-sink path of a BDD produced by the manager's Boolean operations the variable indices strictly increase.", "quantifier": "every finite history of manager API calls, every choice of node addresses and random hash keys, every assignment", "why_tests_cant": "all histories and all paths", "anchors": ["src/bdd_mgr.cpp:and_rec,or_rec,xor_rec,ite_rec,negate"]}
{"id": "C09", "title": "Existing handles are never changed", "statement": "Running any Boolean operation, adding variables or creating or dropping other handles never changes the function, the variable, or the low/high children of a BDD that is still referenced.", "quantifier": "every finite history of manager API calls, every choice of node addresses and random hash keys, every assignment", "why_tests_cant": "quantifies over every later history", "anchors": ["src/bdd_var.cpp:unique_find,double_cache", "src/bdd_node_cache.cpp:reserve_node"]}
{"id": "C10", "title": "Node sharing: one node per (variable, low, high)", "statement": "The manager never holds two nodes with the same variable, low and high child and never a node with equal children; asking twice for the same triple returns the same handle and allocates nothing the second time.", "quantifier": "every history, every triple", "why_tests_cant": "depends on collisions in the hash table for every key sequence", "anchors": ["src/bdd_var.cpp:unique_find,unique_table_lookup"]}
{"id": "C11", "title": "Unique-table growth loses nothing and probing terminates", "statement": "Whenever the per-variable hash table grows, every node stored before is still found, nothing else is, and lookups and insertions always terminate.", "quantifier": "every table content, every sequence of hash keys, every growth step", "why_tests_cant": "collision patterns are unbounded and keys are random", "anchors": ["src/bdd_var.cpp:double_cache,next_free_slot,unique_table_lookup,store_node"]}
{"id": "C12", "title": "Capacity error is clean", "statement": "When a variable's table cannot grow any further the operation either succeeds or throws an exception that leaves the manager usable.", "quantifier": "every history reaching the capacity limit", "why_tests_cant": "needs more than 262144 nodes of one variable, and concerns the state after an exception", "anchors": ["src/bdd_var.cpp:double_cache,new_page"]}
{"id": "C13", "title": "Memo cache is transparent", "statement": "A memo lookup only ever returns a value that was inserted for exactly that operation and operands; growing the cache loses no entry; hence no operation's result depends on what is cached.", "quantifier": "every sequence of inserts, lookups and growth steps, every hash function", "why_tests_cant": "depends on hash collisions and on the order of all earlier operations", "anchors": ["src/bdd_memo_cache.cpp:cache_lookup,cache_insert,double_cache"]}
{"id": "C14", "title": "Results do not depend on addresses or random keys", "statement": "Running the same history in two processes with different node addresses and different random hash keys gives handles with the same functions, the same equalities between handles and the same node counts.", "quantifier": "every history, every pair of address assignments and random streams", "why_tests_cant": "randomness and allocation addresses cannot be enumerated", "anchors": ["src/bdd_mgr.cpp:and_rec", "src/bdd_node.cpp:init_new_node"]}
{"id": "C15", "title": "Range versions of and/or/xor", "statement": "and_rec / or_rec / xor_rec over a range of n >= 2 BDDs (and the variadic versions) equal the conjunction / disjunction / parity of all elements.", "quantifier": "every range length and content", "why_tests_cant": "all lengths", "anchors": ["include/bdd_mgr.h:and_rec,or_rec,xor_rec (ITERATOR and NODES versions)"]}
{"id": "C16", "title": "all_false and at_least_one", "statement": "all_false over a non-empty range is true exactly when no element is true; at_least_one exactly when some element is true.", "quantifier": "every range length, every assignment", "why_tests_cant": "all lengths", "anchors": ["include/bdd_mgr.h:all_false,at_least_one"]}
{"id": "C17", "title": "simplex and at_most_one", "statement": "simplex over a non-empty range is true exactly when exactly one element is true; at_most_one exactly when at most one is.", "quantifier": "every range length, every assignment", "why_tests_cant": "all lengths", "anchors": ["include/bdd_mgr.h:simplex,at_most_one"]}
{"id": "C18", "title": "at_least", "statement": "at_least(range,b) is true exactly when at least b elements are true.", "quantifier": "every non-empty range, every b, every assignment", "why_tests_cant": "all lengths and bounds", "anchors": ["include/bdd_mgr.h:at_least"]}
{"id": "C19", "title": "at_most", "statement": "at_most(range,b) is true exactly when at most b elements are true.", "quantifier": "every non-empty range, every b, every assignment", "why_tests_cant": "all lengths and bounds, including b larger than the range", "anchors": ["include/bdd_mgr.h:at_most"]}
{"id": "C20", "title": "cardinality", "statement": "cardinality(range,b) is true exactly when exactly b elements are true.", "quantifier": "every non-empty range, every b, every assignment", "why_tests_cant": "all lengths and bounds", "anchors": ["include/bdd_mgr.h:cardinality"]}
{"id": "C21", "title": "Equivalent constructions give the same handle", "statement": "For every non-empty range simplex(r) == cardinality(r,1), at_least_one(r) == at_least(r,1) and at_most_one(r) == at_most(r,1) as handles; and/or are commutative, associative, idempotent and satisfy De Morgan as handle equalities.", "quantifier": "every range, every triple of BDDs", "why_tests_cant": "handle equality over unbounded families", "anchors": ["include/bdd_mgr.h:simplex,cardinality,at_least,at_most,at_most_one,at_least_one"]}
{"id": "C22", "title": "Limited conjunction returns the right BDD", "statement": "If and_rec_limited(f,g,limit) returns a non-null handle, that handle is and_rec(f,g).", "quantifier": "every finite history of manager API calls, every choice of node addresses and random hash keys, every assignment, every limit", "why_tests_cant": "early abort interacts with memoisation for every history", "anchors": ["src/bdd_mgr.cpp:and_rec_limited"]}
{"id": "C23", "title": "Limited conjunction respects the limit", "statement": "and_rec_limited(f,g,limit) returns the conjunction together with its number of nodes if that number does not exceed limit, and null otherwise.", "quantifier": "every finite history of manager API calls, every choice of node addresses and random hash keys, every assignment, every limit", "why_tests_cant": "all shapes and limits", "anchors": ["src/bdd_mgr.cpp:and_rec_limited"]}
{"id": "C24", "title": "nr_nodes counts each inner node once", "statement": "nr_nodes() of a handle is the number of distinct non-terminal nodes reachable from it, and the call leaves the BDD (including its mark bits) unchanged.", "quantifier": "every BDD", "why_tests_cant": "all DAG shapes with sharing", "anchors": ["src/bdd_node.cpp:nr_nodes,nr_nodes_impl,unmark"]}
{"id": "C25", "title": "nodes_postorder", "statement": "nodes_postorder() lists every reachable non-terminal node exactly once, each node after its non-terminal children, the root last, and leaves mark bits clear.", "quantifier": "every BDD", "why_tests_cant": "all DAG shapes", "anchors": ["src/bdd_node.cpp:nodes_postorder,nodes_postorder_impl"]}
{"id": "C26", "title": "nodes_bfs", "statement": "nodes_bfs() of a non-terminal BDD lists every reachable non-terminal node exactly once starting with the root, each node before the nodes it discovered, and leaves mark bits clear.", "quantifier": "every BDD", "why_tests_cant": "all DAG shapes", "anchors": ["src/bdd_node.cpp:nodes_bfs"]}
{"id": "C27", "title": "variables() is the support", "statement": "variables() returns the strictly increasing list of exactly the variables the function depends on.", "quantifier": "every ordered BDD", "why_tests_cant": "dependence quantifies over all assignments", "anchors": ["src/bdd_node.cpp:variables,variables_impl"]}
{"id": "C28", "title": "exactly_one_solution", "statement": "exactly_one_solution() returns true exactly when one and only one assignment of the BDD's own variables makes it true.", "quantifier": "every ordered BDD", "why_tests_cant": "counts over all assignments", "anchors": ["src/bdd_node.cpp:exactly_one_solution"]}
{"id": "C29", "title": "rebase renames variables", "statement": "rebase(f,map) evaluates on x like f evaluates on the assignment v -> x[map(v)]; both overloads agree; f is unchanged; missing variables are created.", "quantifier": "every BDD, every map covering its variables", "why_tests_cant": "all maps and DAG shapes", "anchors": ["include/bdd_mgr.h:rebase"]}
{"id": "C30", "title": "Reference counts are exact", "statement": "reference_count() of a live BDD node equals the number of handles to it plus the number of low/high arcs of existing nodes that point to it, after every history of operations, copies, assignments and drops.", "quantifier": "every finite history of manager API calls, every choice of node addresses and random hash keys, every assignment", "why_tests_cant": "ownership bookkeeping over all histories", "anchors": ["src/bdd_node.cpp:node_ref,init_new_node", "src/bdd_node_cache.cpp:free_node"]}
{"id": "C31", "title": "Garbage collection keeps referenced BDDs", "statement": "collect_garbage() never frees or changes a node reachable from a handle the user still holds.", "quantifier": "every state, every hash-table layout", "why_tests_cant": "depends on hash-table collisions and reachability in every state", "anchors": ["src/bdd_mgr.cpp:collect_garbage", "src/bdd_var.cpp:remove_dead_nodes"]}
{"id": "C32", "title": "Garbage collection frees all garbage", "statement": "After collect_garbage() nr_nodes() counts exactly the sinks plus the nodes reachable from held handles.", "quantifier": "every state, every hash-table layout", "why_tests_cant": "depends on collisions between dead and live nodes", "anchors": ["src/bdd_var.cpp:remove_dead_nodes"]}
{"id": "C33", "title": "Garbage collection terminates", "statement": "collect_garbage() returns in finite time from every reachable state.", "quantifier": "every state, every hash-table layout", "why_tests_cant": "non-termination cannot be observed by tests", "anchors": ["src/bdd_var.cpp:remove_dead_nodes,next_free_slot"]}
{"id": "C34", "title": "Operations stay correct after garbage collection", "statement": "After collect_garbage() every Boolean operation on held handles still returns the right, live BDD.", "quantifier": "every finite history of manager API calls, every choice of node addresses and random hash keys, every assignment, with garbage collections anywhere", "why_tests_cant": "needs a history whose memo entries refer to collected nodes", "anchors": ["src/bdd_memo_cache.cpp:purge,can_be_purged", "src/bdd_mgr.cpp:collect_garbage"]}
{"id": "C35", "title": "Garbage collection may shrink tables safely", "statement": "When collection leaves a grown variable table sparsely filled, shrinking it is memory-safe and keeps all nodes findable.", "quantifier": "every grown table that becomes sparse", "why_tests_cant": "needs particular fill levels and unsigned arithmetic", "anchors": ["src/bdd_var.cpp:remove_dead_nodes,new_page,occupied_rate"]}
{"id": "C36", "title": "Node pool", "statement": "The node pool never hands out a node that is in use, hands out nodes in O(1) without limit, and nr_nodes() is always two plus the number of nodes reserved and not freed.", "quantifier": "every sequence of reserve and free calls", "why_tests_cant": "all interleavings of reserve and free over page boundaries", "anchors": ["src/bdd_node_cache.cpp:reserve_node,free_node,increase_cache"]}
{"id": "C37", "title": "Page pool", "statement": "The page pool never hands out a page that is in use, every page handed out is all null, and nr_pages() is the number of pages allocated.", "quantifier": "every sequence of reserve and free calls, every page size", "why_tests_cant": "all sequences", "anchors": ["include/bdd_var.h:unique_table_page_cache"]}
{"id": "C38", "title": "Hash-table pages are large enough", "statement": "Every page a variable table uses has at least as many slots as the table indexes, although pages are taken from and returned to pools of different sizes.", "quantifier": "every growth sequence", "why_tests_cant": "covers all growth steps and pool exchanges", "anchors": ["src/bdd_var.cpp:new_page,free_page"]}
{"id": "C39", "title": "Collection import preserves the function", "statement": "bdd_collection::add_bdd(f) of a non-terminal BDD appends a BDD whose evaluate(x) equals f.evaluate(x) for all x and which has f.nr_nodes()+2 entries.", "quantifier": "every BDD, every collection, every assignment", "why_tests_cant": "all DAG shapes", "anchors": ["src/bdd_collection.cpp:add_bdd", "include/bdd_collection.h:evaluate"]}
{"id": "C40", "title": "Collection export round-trips", "statement": "export_bdd(mgr, add_bdd(f)) returns the very handle f.", "quantifier": "every non-terminal BDD, every manager state", "why_tests_cant": "handle equality for all BDDs", "anchors": ["src/bdd_collection.cpp:add_bdd,export_bdd"]}
{"id": "C41", "title": "Import into a manager from a collection", "statement": "mgr.add_bdd(collection, nr) returns a manager BDD that evaluates like collection entry nr.", "quantifier": "every collection entry, every manager state", "why_tests_cant": "goes through if-then-else and all histories", "anchors": ["src/bdd_mgr.cpp:add_bdd"]}
{"id": "C42", "title": "Collection conjunction is correct", "statement": "collection.bdd_and(i,j) appends a BDD whose evaluate(x) is the conjunction of entries i and j, for all x.", "quantifier": "every collection, every pair of entries, every assignment", "why_tests_cant": "all pairs of DAGs, including pairs whose conjunction is constant", "anchors": ["src/bdd_collection.cpp:bdd_and,bdd_and_impl"]}
{"id": "C43", "title": "Collection node limit is exact", "statement": "bdd_and(i,j,limit) returns the 'too large' value and leaves the collection unchanged exactly when the reduced conjunction has more than limit entries; otherwise it returns what the unlimited call returns.", "quantifier": "every collection, pair and limit > 2", "why_tests_cant": "early abort on all shapes", "anchors": ["src/bdd_collection.cpp:bdd_and,bdd_and_impl"]}
{"id": "C44", "title": "N-ary collection conjunction", "statement": "bdd_and over a range of 1 to 49 entries is the conjunction of all of them; other range sizes throw and change nothing.", "quantifier": "every range", "why_tests_cant": "all sizes and contents", "anchors": ["include/bdd_collection.h:bdd_and", "src/bdd_collection.cpp:bdd_and<N>,bdd_and_impl<N>"]}
{"id": "C45", "title": "Collection conjunction yields a reduced ordered BDD", "statement": "The BDD appended by bdd_and on ordered operands has the root first, arcs pointing forward inside the entry, no redundant and no duplicate nodes, increasing variables on every path, and only reachable nodes.", "quantifier": "every collection and pair", "why_tests_cant": "all shapes", "anchors": ["src/bdd_collection.cpp:bdd_and_impl,is_bdd"]}
{"id": "C46", "title": "Collection entries are independent", "statement": "Adding, conjoining, or rebasing one entry never changes what another entry evaluates to, nor its number.", "quantifier": "every collection and operation", "why_tests_cant": "all histories", "anchors": ["src/bdd_collection.cpp:bdd_and,add_bdd", "include/bdd_collection.h:rebase"]}
{"id": "C47", "title": "Removing entries", "statement": "remove(sorted distinct numbers) deletes exactly those entries; the others keep their function and their relative order and are renumbered consecutively.", "quantifier": "every collection, every sorted set of numbers", "why_tests_cant": "index shifting for all layouts, and an iterator that may run past its end", "anchors": ["include/bdd_collection.h:remove"]}
{"id": "C48", "title": "Collection rebase renames variables", "statement": "rebase(nr,map) makes entry nr evaluate on x like it did on v -> x[map(v)]; both overloads agree.", "quantifier": "every entry, every map", "why_tests_cant": "all maps", "anchors": ["include/bdd_collection.h:rebase"]}
{"id": "C49", "title": "Collection queries", "statement": "variables(nr) is the strictly increasing list of variables occurring in entry nr; nr_bdd_nodes(nr,v) counts its nodes with variable v; nr_bdd_nodes(nr) is their total plus two.", "quantifier": "every entry", "why_tests_cant": "all contents", "anchors": ["src/bdd_collection.cpp:variables,nr_bdd_nodes"]}
{"id": "C50", "title": "Disjunction with literals", "statement": "bdd_or_var(i,pos,neg) appends a BDD equal to entry i OR some variable of pos true OR some variable of neg false.", "quantifier": "every entry, every pair of variable sets", "why_tests_cant": "all shapes, including BDDs that skip a variable on some paths", "anchors": ["include/bdd_collection.h:bdd_or_var", "src/bdd_collection.cpp:reduce"]}
{"id": "C51", "title": "Entry sinks", "statement": "collection[nr].botsink() is the false sink and topsink() the true sink of entry nr.", "quantifier": "every entry however it was created", "why_tests_cant": "depends on how the entry was produced", "anchors": ["src/bdd_collection.cpp:bdd_collection_entry::botsink,topsink"]}
{"id": "C52", "title": "Building entries by hand", "statement": "new_bdd / add_bdd_node / set arcs / close_bdd produces the BDD described by the arcs set, and throws if an arc is missing.", "quantifier": "every sequence of builder calls", "why_tests_cant": "all construction sequences", "anchors": ["src/bdd_collection.cpp:new_bdd,add_bdd_node,close_bdd"]}
{"id": "C53", "title": "Node depth table", "statement": "add_node(p) records and returns one more than the larger depth of p's children, i.e. the length of the longest path from p to a sink.", "quantifier": "every BDD, every children-first insertion order", "why_tests_cant": "all DAG shapes", "anchors": ["src/bdd_node_depth.cpp:add_node,add_botsink,add_topsink"]}
{"id": "C54", "title": "Variable limit", "statement": "The manager distinguishes inner nodes from sinks for every variable index it accepts.", "quantifier": "every index below the documented maximum 2^41", "why_tests_cant": "cannot allocate 2^41 variables", "anchors": ["include/bdd_node.h:botsink_index,topsink_index", "src/bdd_mgr.cpp:add_variable"]}
{"id": "C55", "title": "Destruction releases every node", "statement": "Destroying a manager to which no handle is left returns every node to the pool without a failed check.", "quantifier": "every finite history of manager API calls, every choice of node addresses and random hash keys, every assignment", "why_tests_cant": "depends on all histories and on the order in which variables are released", "anchors": ["src/bdd_mgr.cpp:~bdd_mgr", "src/bdd_var.cpp:release_nodes"]}
{"id": "C56", "title": "Operators find the manager", "statement": "find_bdd_mgr() of every handle returns the manager that owns it, so the operators act on the right manager and node_ref::botsink()/topsink() return its sinks.", "quantifier": "every BDD", "why_tests_cant": "all DAG shapes", "anchors": ["src/bdd_node.cpp:find_bdd_mgr"]}
{"id": "C57", "title": "Operation results only use operand variables", "statement": "Every variable occurring in the result of and/or/xor/negate/ite occurs in one of the operands.", "quantifier": "every finite history of manager API calls, every choice of node addresses and random hash keys, every assignment", "why_tests_cant": "all histories", "anchors": ["src/bdd_mgr.cpp"]}
{"id": "C58", "title": "Graph output lists every arc once", "statement": "print() writes for every reachable non-terminal node exactly its two arcs, each once, and leaves mark bits clear; export_graphviz writes the two arcs of every non-terminal entry node.", "quantifier": "every BDD, every entry", "why_tests_cant": "all DAG shapes", "anchors": ["include/bdd_node.h:print,print_rec", "include/bdd_collection.h:export_graphviz"]}
{"id": "C59", "title": "Walking over an entry agrees with evaluate", "statement": "For every entry of a collection and every assignment, following lo()/hi() node handles from root_node() as the assignment says ends at a terminal after at most as many steps as the entry has instructions, and that terminal is the top sink exactly when evaluate(nr, x) returns true.", "quantifier": "every reachable collection, every entry, every assignment long enough for the entry's variables", "why_tests_cant": "all entries and assignments", "anchors": ["include/bdd_collection.h:root_node,lo,hi,is_terminal,is_topsink", "include/bdd_collection.h:evaluate"]}
{"id": "C60", "title": "Postorder iteration over an entry is exact", "statement": "Iterating from first_node_postorder() by next_postorder() up to root_node() visits every inner node of the entry exactly once, children before parents and the root last.", "quantifier": "every reachable collection, every entry with an inner node", "why_tests_cant": "all entries", "anchors": ["include/bdd_collection.h:first_node_postorder,next_postorder,root_node"]}
{"id": "C61", "title": "Operations allocate only their result", "statement": "and_rec, or_rec, xor_rec, negate, ite_rec, projection, neg_projection and unique_find create exactly those nodes of the returned BDD that did not exist before: nr_nodes() of the manager grows by their number and no intermediate node is left behind.", "quantifier": "every history (collections included), all operands, every table and memo-cache state, every call that returns", "why_tests_cant": "whether intermediate results leak depends on the shapes of both operands and on which memo entries were overwritten", "anchors": ["src/bdd_node.cpp:and_rec,or_rec,xor_rec,negate,ite_rec", "src/bdd_var.cpp:unique_find", "src/bdd_mgr.cpp:nr_nodes"]}
{"id": "C62", "title": "Recomputing a known function costs no memory", "statement": "If the user already holds a BDD of the result, and_rec, or_rec, negate and ite_rec return that same handle and create no node, whatever was evicted from the memo cache.", "quantifier": "every history, all operands", "why_tests_cant": "all cache states", "anchors": ["src/bdd_node.cpp:and_rec,or_rec,negate,ite_rec", "src/bdd_memo_cache.cpp"]}
{"id": "C63", "title": "Garbage collection is idempotent", "statement": "A second collect_garbage() directly after a first one returns and changes nothing.", "quantifier": "every history", "why_tests_cant": "all heaps", "anchors": ["src/bdd_mgr.cpp:collect_garbage", "src/bdd_var.cpp:remove_dead_nodes"]}
{"id": "C64", "title": "Size bounds", "statement": "A BDD of a combination of BDDs has at most the product of their sizes (each plus two) inner nodes, a conjunction or disjunction at most |f||g|+|f|+|g|, and a negation exactly as many as its operand.", "quantifier": "every history, all operands, all combinations", "why_tests_cant": "all shapes of operands", "anchors": ["src/bdd_node.cpp:and_rec,or_rec,negate"]}
{"id": "C65", "title": "Walking a BDD by handles agrees with its function", "statement": "is_botsink/is_topsink/is_terminal recognise exactly the sinks; on every other handle variable(), low() and high() return an existing variable and two different BDDs such that the function is that of high() where the variable is true and that of low() where it is false; in order-respecting histories they are the two cofactors and the variable is the smallest one the function depends on.", "quantifier": "every history, every held BDD, every assignment", "why_tests_cant": "all reachable BDDs and assignments", "anchors": ["include/bdd_node.h:low,high,variable", "src/bdd_node.cpp:is_botsink,is_topsink"]}
{"id": "C66", "title": "Only the sinks are constant", "statement": "A BDD's function is constantly false exactly when is_botsink(), and constantly true exactly when is_topsink(); so satisfiability and validity are decided by looking at the handle.", "quantifier": "every history, every held BDD", "why_tests_cant": "all reachable BDDs", "anchors": ["src/bdd_node.cpp:is_botsink,is_topsink", "src/bdd_mgr.cpp:xor_rec"]}
{"id": "C67", "title": "Repeating a call gives back the same handles", "statement": "If a function of the API is called again with the same BDDs while the user still holds these and the results of the first call, it returns the same handles, whatever other calls and garbage collections happened in between; without a garbage collection in between it creates no node.", "quantifier": "every history before, between the calls and every function of the API but the limited conjunction, all operands", "why_tests_cant": "all histories between the calls, all cache states", "anchors": ["src/bdd_mgr.cpp", "src/bdd_node.cpp:and_rec,or_rec,xor_rec,ite_rec,negate", "src/bdd_memo_cache.cpp"]}
{"id": "C68", "title": "Boolean laws hold for handles", "statement": "The results of expressions equal by a law are equal as handles: double negation, commutativity, idempotence, neutral and absorbing elements, De Morgan's laws, for and_rec, or_rec, xor_rec and negate.", "quantifier": "every history, all held operands", "why_tests_cant": "all reachable BDDs and cache states", "anchors": ["src/bdd_node.cpp:and_rec,or_rec,xor_rec,negate"]}
{"id": "C69", "title": "User marks are invisible except to traversals of marked BDDs", "statement": "mark() and unmark() on a handle write the bit that marked() reads and nothing else; unmark_rec() clears exactly the marks of the nodes joined to the root by a path of marked nodes. Marks stay as the user left them through every other call, garbage collection included. No call's outcome depends on them, except traversals (nr_nodes, nodes_postorder, nodes_bfs, variables, print, rebase, limited and) of BDDs that contain marked nodes; traversals of BDDs without marked nodes are exact and leave all marks alone.", "quantifier": "every history of API calls interleaved with mark(), unmark(), unmark_rec() on held handles", "why_tests_cant": "all histories, all sets of marked nodes, all sharing patterns", "anchors": ["include/bdd_node.h:node_ref::marked,mark,unmark,unmark_rec", "src/bdd_node.cpp:node_struct::mark,unmark"]}
{"id": "C70", "title": "The text of print() is a faithful drawing", "statement": "print() on a BDD writes a well-formed text, and leaves the state alone: read back, it gives exactly the two labelled arcs of every inner node of the BDD, none twice, the root's first; different nodes have different names; following the arcs from the root's name gives, for every assignment, what evaluate() returns. Two BDDs with inner roots and equal texts are the same handle. (Both sinks print the same text.)", "quantifier": "every history, every held BDD, every assignment, every placement of nodes in memory", "why_tests_cant": "all BDDs, all sharing patterns, all addresses", "anchors": ["include/bdd_node.h:print,print_rec"]}
{"id": "C71", "title": "The text of export_graphviz() is a faithful drawing", "statement": "export_graphviz(nr) on an entry with inner nodes writes a text that, read back, gives every instruction once under its position with the right variable or sink label, and exactly the solid (true) and dashed (false) arcs of every inner node; the invisible arrows and the groups, enumerated in whatever order, do not change this. Following the arcs from node 0 gives the value of evaluate. Entries of whatever collections with equal texts agree on every assignment.", "quantifier": "every collection history, every entry with inner nodes, every enumeration order of the unordered map, every assignment", "why_tests_cant": "all collections, all hash orders", "anchors": ["include/bdd_collection.h:export_graphviz"]}
{"id": "C72", "title": "Recursion depth is bounded by the number of variables", "statement": "No recursive function of the manager nests deeper than a bound that does not depend on the number of nodes: for BDDs that respect the variable order and a manager with n variables, and/or/limited and need at most 2n+2 nested calls, ite, negate, exactly_one_solution, evaluate and the traversals n+1; for arbitrary BDDs the same with the lengths of the operands' longest paths (2(df+dg)+2 for the binary operations, df+dg+dh+1 for ite, d+1 for the others). A run cut off at that depth ends in the same result and state.", "quantifier": "every history, every held BDD, every build, every placement of nodes", "why_tests_cant": "all BDDs of all sizes; a stack overflow only shows for inputs larger than the tests", "anchors": ["src/bdd_mgr.cpp:and_rec,or_rec,xor_rec,ite_rec,negate,and_rec_limited", "src/bdd_node.cpp:nr_nodes_impl,nodes_postorder_impl,variables_impl,mark,unmark,exactly_one_solution,find_bdd_mgr"]}
{"id": "C73", "title": "Collections and managers are canonical for each other", "statement": "In a manager whose history respects the variable order, transferring an ordered collection entry (export_bdd, or mgr.add_bdd of the collection) whose function some held BDD p already has returns the handle p itself, wherever the entry came from and whether or not it is reduced; if the entry is reduced and connected, as every entry made by add_bdd or bdd_and is, export_bdd allocates nothing. The two conjunctions agree: when and_rec(f, g) is a non-constant r and ordered entries i, j have the functions of f and g, bdd_and(i, j, limit) succeeds exactly for limits from nr_nodes(r)+2 on, the new entry has nr_nodes(r)+2 instructions, and exporting it returns r and allocates nothing; likewise for ranges.", "quantifier": "every history that respects the variable order, every reachable collection, all entries and limits, every build", "why_tests_cant": "all pairs of representations of all Boolean functions; tests compare a few", "anchors": ["src/bdd_collection.cpp:export_bdd,bdd_and,bdd_and_impl", "src/bdd_mgr.cpp:add_bdd,and_rec"]}
{"id": "C74", "title": "Raw instructions and entry handles", "statement": "get_bdd_instructions(nr) gives access to exactly the instructions of the entry, as many as nr_bdd_nodes(nr), inner nodes first and the two sinks last, with arcs that are offsets in the sense of offset() and point to later instructions of the entry, so that one pass from the last to the first computes evaluate(nr, x) for every assignment; the functions of collection[nr] (variables, nr_nodes, rebase) are those of the collection applied to nr; collection[nr][k] is the k-th instruction and node handles are equal exactly when entry and position are; collection[i] & collection[j] appends and returns the conjunction when it is satisfiable (in debug builds also refutable).", "quantifier": "every reachable collection, every entry, assignment and position, every build", "why_tests_cant": "all entries of all sizes and all assignments", "anchors": ["include/bdd_collection.h:get_bdd_instructions,get_reverse_bdd_instructions,bdd_collection_entry::rebase", "src/bdd_collection.cpp:offset,bdd_collection_entry::operator&,operator[],variables,nr_nodes,bdd_collection_node::operator==,operator!="]}
{"id": "C75", "title": "Temporary handles balance", "statement": "The functions of the library create and destroy many handle objects while they run: parameters passed by value, local variables, results of inner calls, elements of vectors and maps. Each is destroyed exactly once, also when an exception leaves the function: whether a call returns or throws, and whether or not its preconditions hold, the reference count of every node afterwards is the number of handles the user has, plus the arcs of nodes pointing to it, plus one for a sink. No assertion in a handle's destructor fires, and the temporaries have no influence on any result, allocation or exception. The operators &, ||, ^ and ! behave like the functions they call.", "quantifier": "every history, every call in it (legal or not), every hash, address layout, evaluation order of arguments and build", "why_tests_cant": "a leaked or doubly released reference shows only when a later collection frees too much or too little; all call paths of all histories, including exceptions in the middle of a recursion, must balance", "anchors": ["src/bdd_node.cpp:node_ref::node_ref,node_ref::~node_ref,node_ref::operator=,convert_node_to_node_ref", "src/bdd_mgr.cpp:and_rec,or_rec,xor_rec,ite_rec,negate,and_rec_limited,add_bdd", "include/bdd_mgr.h:simplex,at_most_one,at_least,at_most,cardinality,operator&", "src/bdd_collection.cpp:export_bdd"]}
{"id": "C76", "title": "Cost of negation", "statement": "A negation that returns has made exactly as many recursive calls as its operand has nodes, sinks included, when it is unfolded into a tree (a shared node counts once for every path that leads to it): negation is not memoised. The number is therefore not bounded by a polynomial in the size of the BDD: negating the parity of n variables (at most 2n-1 nodes) makes 2^(n+1)-1 calls.", "quantifier": "every history, every held operand, every build; for the parity every set of variables and every history that respects the variable order", "why_tests_cant": "the number of calls of every operand of every size; tests time a few", "anchors": ["src/bdd_mgr.cpp:negate", "src/bdd_node.cpp:nr_nodes"]}
{"id": "C77", "title": "Cost of the conjunction of a collection", "statement": "bdd_and of a collection remembers only the pairs for which it created an instruction. The conjunction of two ordered entries without a common solution makes one call for every node of the simultaneous descent of both, unfolded into a tree; for an entry and its negation that is the unfolded size of the entry, so the conjunction of the parity of n variables (at most 2n+1 instructions) with its negation makes 2^(n+1)-1 calls. Also for satisfiable conjunctions: if the smallest variable is the root of the second operand and its low arc leads to the false sink, the whole first operand is unfolded.", "quantifier": "every reachable collection, all ordered entries, all limits, every build", "why_tests_cant": "the number of calls for all entries of all sizes", "anchors": ["src/bdd_collection.cpp:bdd_and,bdd_and_impl"]}
{"id": "C78", "title": "Traversals are linear", "statement": "nr_nodes, nodes_postorder, nodes_bfs and variables visit shared nodes once: they make at most 4k+2 calls (nodes_bfs: 3k+1 iterations and calls) in release builds and at most 8k+4 (7k+3) in debug builds, where k is the number of nodes of the BDD.", "quantifier": "every history, every held BDD, every build", "why_tests_cant": "all BDDs of all shapes; sharing can make a traversal exponential without changing its result", "anchors": ["src/bdd_node.cpp:nr_nodes,nodes_postorder,nodes_bfs,variables,unmark_rec"]}
{"id": "C79", "title": "Recursion depth of the conjunctions of a collection", "statement": "bdd_and of a collection recurses, and the stack is limited: the conjunction of two entries has at most as many nested calls as the sum of the depths of the entries plus one; if the entries are ordered, at most the number of their variables plus one, and for a sequence of ordered entries the number of variables of all of them plus one, however long the sequence is. An ordered entry is not deeper than the number of its variables.", "quantifier": "every reachable collection, all entries and sequences of entries, all limits, every build", "why_tests_cant": "all entries of all sizes; a stack overflow appears only for inputs larger than a test uses", "anchors": ["src/bdd_collection.cpp:bdd_and,bdd_and_impl", "include/bdd_collection.h:bdd_and"]}
{"id": "C80", "title": "The number of nodes is determined by the function and is minimal", "statement": "In histories that respect the variable order and do not use xor_rec, nr_nodes() of a BDD is the number of different non-constant functions one gets from its function by fixing some number of its first variables, and nodes_postorder() returns a handle to each of these functions exactly once. Every other BDD of the same function that respects the order, in any manager and after any history, has the same number of nodes; an ordered, reduced and connected collection entry of the function has two more (the sinks), and no ordered entry of the function has fewer.", "quantifier": "every history that respects the variable order without xor_rec, every held BDD, every function, every collection entry", "why_tests_cant": "all functions and all ways to build them; that no smaller diagram exists is not observable in a run", "anchors": ["src/bdd_node.cpp:nr_nodes,nodes_postorder", "include/bdd_mgr.h:unique_find", "src/bdd_collection.cpp:nr_bdd_nodes"]}
{"id": "C81", "title": "The library is a store of Boolean functions", "statement": "To its user the manager is a list of handles that stand for Boolean functions of the variables, and nothing else: after every history the handles behave (through evaluate) as if each call had computed the function it is documented to compute from the functions of its arguments, variables had been added as documented, and copying, moving, assigning and releasing handles had copied, moved, replaced and removed functions; garbage collection, node addresses, hash tables, the cache and earlier calls do not matter. In histories that respect the variable order and do not use xor_rec, comparing two handles decides equality of their functions, low and high are the cofactors by the smallest variable the function depends on, and nodes_postorder and nodes_bfs list its residual functions.", "quantifier": "every history of calls, handle operations and collections, in every environment and build", "why_tests_cant": "all histories of all lengths: a stale cache entry or a freed node changes the function of a handle long after the call that caused it", "anchors": ["include/bdd_mgr.h:bdd_mgr", "src/bdd_mgr.cpp", "include/bdd_node.h:node_ref"]}
{"id": "C82", "title": "Manager and collection together are a store of Boolean functions", "statement": "To a client that uses one manager and one collection, the manager is a list of handles to Boolean functions (C81) and the collection is a list of Boolean functions: after every history, evaluate on handles and on entries returns the values these functions have if add_bdd had appended the function of the handle, bdd_and the conjunction of the entries (or nothing if the node limit is exceeded; a contradictory conjunction is not specified), rebase had renamed the variables of one entry, remove had deleted the listed entries and renumbered the others in order, bdd_or_var had appended a function between the entry and its disjunction with the given literals, and export_bdd and bdd_mgr::add_bdd had returned a new handle to the function of the entry; the numbers returned are the positions in that list, and nothing else changes.", "quantifier": "every history of calls of the manager, operations on handles, calls of the collection and transfers in both directions, in every environment and build", "why_tests_cant": "all histories of all lengths, with state shared between the two components (marks, reference counts, the scratch vectors and hash maps of the collection)", "anchors": ["include/bdd_mgr.h:bdd_mgr", "include/bdd_collection.h:bdd_collection", "src/bdd_collection.cpp"]}
{"id": "C83", "title": "Admissible calls succeed", "statement": "A call on existing, non-null handles (or entries) whose documented or asserted preconditions hold does what C81 and C82 say: it returns, with the specified result, or throws because some variable of the manager has more than 2^18 nodes, in which case the user's handles are as before. It never fails an assertion, has undefined behaviour or runs forever, whatever the history.", "quantifier": "every reachable state of a manager and a collection, every function of the API, every operation on handles, every admissible argument, in every environment and build", "why_tests_cant": "an assertion or a missing base case may be hit only in particular combinations of BDDs, cache contents, uninitialised marks and table sizes", "anchors": ["include/bdd_mgr.h:bdd_mgr", "src/bdd_node.cpp", "src/bdd_collection.cpp", "include/bdd_node.h:node_ref"]}
{"id": "C84", "title": "Numbers of calls of the memoised operations", "statement": "and_rec, or_rec and xor_rec make at most 4kl+2 recursive calls, plus 4 for every memo entry of another key that the call overwrites, where k and l are the numbers of nodes of the operands; ite_rec makes at most 2k(l+2)(m+2)+1 calls of itself, plus 2 for every overwritten entry. Whatever the memo cache does, the number is at most 2^(d+2)-2 (ite_rec: 2^(d+1)-1), where d is the sum of the depths of the operands or, if no xor_rec and no manual construction against the order has been used, the number of variables.", "quantifier": "every reachable manager state, all operands, every call that returns, every table and cache content, in every environment and build", "why_tests_cant": "worst cases are exponentially large, and the cache is lossy: the bound has to hold for every pattern of collisions, evictions and doublings", "anchors": ["src/bdd_mgr.cpp:and_rec", "src/bdd_mgr.cpp:or_rec", "src/bdd_mgr.cpp:xor_rec", "src/bdd_mgr.cpp:ite_rec", "src/bdd_memo_cache.cpp:cache_insert"]}
{"id": "C85", "title": "Answers are determined by the functions of the handles", "statement": "In histories without xor_rec in which hand-made nodes and renamings respect the variable order, every question a client can ask about its handles - nr_variables(), evaluate(), ==, is_botsink(), is_topsink(), is_terminal(), variable(), nr_nodes(), variables(), exactly_one_solution() - is answered, the answer is the one that the Boolean functions of the handles determine (equality of functions, constancy, smallest variable the function depends on, number of inconstant residual functions, support, uniqueness of the solution), and asking changes nothing. Two clients whose handles stand for the same functions get the same answers, whatever their histories and environments.", "quantifier": "every reachable state of every ordered history, all questions about existing handles, all pairs of clients and environments", "why_tests_cant": "the answers are computed from nodes, marks and addresses that depend on the whole history and on the environment", "anchors": ["include/bdd_node.h:node_ref", "src/bdd_node.cpp:nr_nodes", "src/bdd_node.cpp:variables", "src/bdd_node.cpp:exactly_one_solution", "include/bdd_mgr.h:nr_variables"]}
{"id": "C86", "title": "Node capacity and range of the reference counts", "statement": "In every reachable state each variable has at most 262145 nodes, so a manager with n variables has at most 262145*n inner nodes; the bound is attained, and once it is, no successful call adds a node of that variable. Every reference count lies between 0 and the number of the client's handles plus the number of inner nodes plus one; so the 32-bit counters do not overflow while the client holds at most 2^30 handles and the manager has at most 4000 variables.", "quantifier": "every finite history of manager API calls, every choice of node addresses and random hash keys, every variable and node", "why_tests_cant": "bounds over all histories; overflow needs billions of references", "anchors": ["src/bdd_var.cpp:unique_find,double_cache,occupied_rate", "include/bdd_var.h:max_unique_table_fill", "include/bdd_node.h:xref,reference_count"]}
{"id": "C87", "title": "Deciding formulas", "statement": "In histories that respect the variable order and do not use xor_rec, a client decides propositional formulas with the library: a formula built bottom-up from held handles with negate, and_rec, or_rec and the range functions (conjunction, disjunction, none, some, at most one, exactly one, cardinality bounds) denotes the value of the formula; two formulas that agree as Boolean functions of the held handles give the same handle whatever their syntax and the order of construction; on handles of distinct variables the handles are equal exactly if the formulas are equivalent, is_topsink() answers validity and is_botsink() unsatisfiability.", "quantifier": "every reachable state, every list of held handles, every formula of any size and nesting, every environment and build", "why_tests_cant": "formulas of unbounded size; equality of handles has to coincide with semantic equivalence for all pairs", "anchors": ["src/bdd_mgr.cpp:negate,and_rec,or_rec", "include/bdd_mgr.h:and_rec,or_rec,simplex,at_most_one,cardinality,at_least,at_most"]}
{"id": "C88", "title": "Renamings form an algebra", "statement": "rebase with the identity gives back the same handle and allocates nothing; renaming twice gives the same handle as renaming by the composition; renaming back gives back the original handle; a renaming never increases the number of nodes, and keeps it if it identifies no two variables of the BDD. In ordered histories renaming commutes with every construction of C87: renaming the built formula and building it from the renamed operands give the same handle.", "quantifier": "every reachable state, every held handle, every variable map covering the variables of the BDD (in ordered histories: increasing on them), every formula, every environment and build", "why_tests_cant": "relations between several calls for all BDDs and all maps", "anchors": ["src/bdd_mgr.cpp:rebase", "include/bdd_mgr.h:rebase", "src/bdd_node.cpp:nr_nodes"]}
{"id": "C89", "title": "Several managers and collections", "statement": "A program may create any number of managers and collections, copy collections, and interleave calls and transfers between them in any order: every manager behaves like its own store of Boolean functions (C81) and every collection like its own list of Boolean functions (C82), and no step changes what another manager or collection looks like. A BDD added to a collection by one manager and exported into another one has the same function there; if both histories respect the variable order and the second manager already holds a BDD of that function, exactly that handle comes back and no node is created; mgr.add_bdd(collection, nr) creates missing variables.", "quantifier": "every finite interleaving of calls over any number of managers and collections, every environment (addresses, random keys) of each manager, every held BDD", "why_tests_cant": "all interleavings and all pairs of environments", "anchors": ["include/bdd_collection.h:bdd_collection", "src/bdd_collection.cpp:add_bdd,export_bdd", "src/bdd_mgr.cpp:add_bdd", "src/bdd_node.cpp:init_new_node"]}
{"id": "C90", "title": "Collections are invisible", "statement": "In any state of any history, for any sequence of handle operations (copying, moving, assigning, destroying), questions about handles (evaluate, ==, is_botsink, is_topsink, is_terminal, variable, nr_nodes, variables, exactly_one_solution, nr_variables) and garbage collections that return — whatever they do to the unique tables — every answer, every handle and every failure is that of the same sequence without the collections. In particular a collection leaves the store of Boolean functions that the client holds as it is, and in ordered histories all answers after it are right. (A later call of a function that creates nodes may notice: the findings on the collector.)", "quantifier": "every reachable state of every discipline, every finite sequence of handle operations, questions and collections, every layout of the unique tables, every environment and build", "why_tests_cant": "an equivalence between two executions for all states, layouts and sequences", "anchors": ["src/bdd_mgr.cpp:collect_garbage", "src/bdd_var.cpp:remove_dead_nodes", "src/bdd_node.cpp:nr_nodes,variables,exactly_one_solution,evaluate"]}
{"id": "C91", "title": "Questions leave no trace", "statement": "In every state of every history, of any discipline, every admissible question about a handle (evaluate with a value for every variable, ==, is_botsink, is_topsink, is_terminal, variable, nr_nodes, variables, exactly_one_solution, nr_variables; nr_nodes of a sink only where its uninitialised mark bit is not looked at or not set) is answered: no assertion fails, no exception is thrown, it ends. Whether admissible or not, a question that is answered leaves the complete state as it was (nodes, marks, reference counts, tables, cache, random generator), none throws and none loops. So a program with its questions removed ends in exactly the same state, with the same addresses, or throws the same exception in the same state.", "quantifier": "every reachable state of every discipline, every question, every finite session of admissible operations interleaved with questions in any way, every environment and build", "why_tests_cant": "equality of whole states for all states and all sessions", "anchors": ["src/bdd_node.cpp:nr_nodes,variables,exactly_one_solution,evaluate,mark,unmark,find_bdd_mgr", "include/bdd_node.h:is_botsink,is_topsink,is_terminal"]}
{"id": "C92", "title": "An exception leaves the handles unharmed", "statement": "If in any state of any history an admissible call throws, the user's handles are in the same slots with the same functions, and every question about them other than nr_variables (which may have grown) is answered as before the call. From then on the user can copy, move, assign and destroy handles, which succeeds, changes no BDD that is still held and no number of variables; and in every state reached so every admissible question is answered, without an assertion failing and without a further exception, and changes nothing. Such exceptions do occur with any addresses and hash keys. (Calls that create nodes and collections after an exception are another matter, see C12.)", "quantifier": "every reachable state of every discipline, every admissible call that throws, every finite sequence of handle operations after it, every question, every environment and build", "why_tests_cant": "needs a variable with more than 2^18 nodes, and then a statement about all states, all handles and all assignments", "anchors": ["src/bdd_var.cpp:new_page,double_cache,unique_find", "src/bdd_mgr.cpp:bdd_mgr", "src/bdd_node.cpp:nr_nodes,variables,exactly_one_solution,evaluate"]}
