import Verif.Model.Base
/-!
# Model of the BDD manager: nodes, node pool, unique tables, memo cache, Boolean operations

Files modelled: include/bdd_node.h, src/bdd_node.cpp, include/bdd_node_cache.h,
src/bdd_node_cache.cpp, include/bdd_var.h, src/bdd_var.cpp, include/bdd_memo_cache.h,
src/bdd_memo_cache.cpp, include/bdd_mgr.h, src/bdd_mgr.cpp.
-/
namespace LBDD

/-- Everything the program takes from its environment.
* `ndebug`: whether asserts are compiled out;
* `addr p`: machine address of the node in pool position `p` (arbitrary but distinct; never as small
  as the operation tags, which are the addresses 32 and 64);
* `rng i`: the i-th random hash key drawn in `init_new_node` (bdd_node.cpp:25-29);
* `rtl`: whether call arguments are evaluated right to left (C++ leaves the order open);
* `sinkHash`, `sinkMark`: hash keys and mark bits of the two sinks, which the code never initialises
  (bdd_node.cpp:115-136). -/
structure Cfg where
  ndebug : Bool
  addr : Nat → Nat
  addr_inj : ∀ p q, addr p = addr q → p = q
  addr_big : ∀ p, 64 < addr p
  rng : Nat → Nat
  rtl : Bool
  sinkHash : Bool → Nat
  sinkMark : Bool → Bool

/-- include/bdd_node.h:64: `botsink_index = 2^41 - 1`. -/
def botsinkIndex : Nat := 2 ^ 41 - 1
/-- include/bdd_node.h:65: `topsink_index = 2^41 - 2`. -/
def topsinkIndex : Nat := 2 ^ 41 - 2

/-- One node (include/bdd_node.h:49-62). The fields `lo`/`hi` of a sink hold the manager pointer in
the C++ union; the model never reads them (following an arc of a sink is `ub`). `live` is a ghost
flag: false when the cell was never reserved or is on the free list; following an arc of such a
cell is `ub`. The mark bit is kept in `Mgr.marks`. -/
structure Cell where
  lo : Nat
  hi : Nat
  index : Nat
  hashKey : Nat
  xref : Int
  live : Bool

/-- `bdd_node_cache` (include/bdd_node_cache.h:19-40): `pages` pages of 4096 nodes, `off` is the
offset of `nodeptr` in the newest page, `avail` the stack of freed nodes (linked through
`next_available` in C++), `total` is `total_nodes`. Pool position = page number * 4096 + offset. -/
structure Pool where
  pages : Nat
  off : Nat
  avail : List Nat
  total : Nat

/-- `var_struct` (include/bdd_var.h:74-140). `slots` is the page `base`, `cap` its real number of
slots (the page may be larger than `mask+1`). -/
structure VarTable where
  mask : Nat
  free : Nat
  timer : Nat
  cap : Nat
  slots : Nat → Option Nat

/-- `memo_struct` (include/bdd_memo_cache.h:12-34). `h` is a machine address or an operation tag. -/
structure MemoEntry where
  f : Option Nat
  g : Option Nat
  h : Nat
  r : Option Nat
  deriving DecidableEq

/-- `memo_cache` (include/bdd_memo_cache.h:38-72), without the unused `memos2`. -/
structure Memo where
  entries : Nat → MemoEntry
  size : Nat
  mask : Nat
  inserts : Nat
  threshold : Nat

/-- `bdd_mgr` (include/bdd_mgr.h:92-95) together with the heap of nodes. `rngPos` counts the random
keys drawn so far. -/
structure Mgr where
  cells : Nat → Cell
  marks : Nat → Bool
  pool : Pool
  nvars : Nat
  tabs : Nat → VarTable
  memo : Memo
  rngPos : Nat

/-- pool position of `botsink_` (bdd_node_cache.cpp:13) -/
def botId : Nat := 0
/-- pool position of `topsink_` (bdd_node_cache.cpp:16) -/
def topId : Nat := 1

/-- `and_symb()` = address of element 1 of a null-based `node` array; `sizeof(node) = 32`
(include/bdd_memo_cache.h:18-20). -/
def andTag : Nat := 32
/-- `or_symb()` (include/bdd_memo_cache.h:22-24). -/
def orTag : Nat := 64
/-- `xor_symb()` returns `or_symb_impl` (include/bdd_memo_cache.h:26-28). -/
def xorTag : Nat := orTag

def emptyEntry : MemoEntry := ⟨none, none, 0, none⟩

/-- Fresh `bdd_mgr`: bdd_mgr.cpp:8-11, bdd_node_cache.cpp:6-21, bdd_node.cpp:115-136,
bdd_memo_cache.cpp:18-22,109-114. -/
def Mgr.init (cfg : Cfg) : Mgr where
  cells := fun p =>
    if p = botId then ⟨0, 0, botsinkIndex, cfg.sinkHash false, 1, true⟩
    else if p = topId then ⟨0, 0, topsinkIndex, cfg.sinkHash true, 1, true⟩
    else ⟨0, 0, 0, 0, 0, false⟩
  marks := fun p => if p = botId then cfg.sinkMark false else if p = topId then cfg.sinkMark true else false
  pool := ⟨1, 2, [], 2⟩
  nvars := 0
  tabs := fun _ => ⟨0, 0, 0, 0, fun _ => none⟩
  memo := ⟨fun _ => emptyEntry, 1, 0, 0, 0⟩
  rngPos := 0

/-! ## Node pool -/

/-- `bdd_node_cache::reserve_node` and `increase_cache` (bdd_node_cache.cpp:23-64). -/
def Pool.reserve (c : Pool) : Nat × Pool :=
  match c.avail with
  | r :: rest => (r, { c with avail := rest, total := c.total + 1 })
  | [] =>
    if c.off < 4096 then
      ((c.pages - 1) * 4096 + c.off, { c with off := c.off + 1, total := c.total + 1 })
    else
      (c.pages * 4096, { c with pages := c.pages + 1, off := 1, total := c.total + 1 })

/-- The pool's part of `bdd_node_cache::free_node` (bdd_node_cache.cpp:73-75): push on the free list. -/
def Pool.release (c : Pool) (p : Nat) : Pool := { c with avail := p :: c.avail, total := c.total - 1 }

/-- `bdd_node_cache::free_node` (bdd_node_cache.cpp:66-76). Freeing a node that is not in use, or a
sink, is `ub` (its arcs are not node pointers). -/
def freeNode (cfg : Cfg) (p : Nat) : M Mgr Unit := do
  let s ← M.get
  let c := s.cells p
  if !c.live || topsinkIndex ≤ c.index then M.ub else do
  M.assert cfg.ndebug (c.xref ≤ 0)
  M.assert cfg.ndebug (0 < (s.cells c.lo).xref)
  let cells1 := upd s.cells c.lo { s.cells c.lo with xref := (s.cells c.lo).xref - 1 }
  M.assert cfg.ndebug (0 < (cells1 c.hi).xref)
  let cells2 := upd cells1 c.hi { cells1 c.hi with xref := (cells1 c.hi).xref - 1 }
  let cells3 := upd cells2 p { cells2 p with live := false }
  M.set { s with
    cells := cells3
    pool := s.pool.release p }

/-! ## Reading nodes -/

/-- `node_struct::is_botsink` with its assert (bdd_node.cpp:123-127). The compared fields of a sink
are equal (both hold the manager pointer), those of an inner node are its arcs. -/
def isBot (cfg : Cfg) (p : Nat) : M Mgr Bool := do
  let s ← M.get
  let c := s.cells p
  M.assert cfg.ndebug ((c.index == topsinkIndex || c.index == botsinkIndex) == (c.lo == c.hi))
  pure (c.index == botsinkIndex)

/-- `node_struct::is_topsink` (bdd_node.cpp:138-142). -/
def isTop (cfg : Cfg) (p : Nat) : M Mgr Bool := do
  let s ← M.get
  let c := s.cells p
  M.assert cfg.ndebug ((c.index == topsinkIndex || c.index == botsinkIndex) == (c.lo == c.hi))
  pure (c.index == topsinkIndex)

/-- `node_ref::low` (include/bdd_node.h:93): `ub` on sinks and freed nodes. -/
def lowOf (p : Nat) : M Mgr Nat := do
  let s ← M.get
  if !(s.cells p).live || topsinkIndex ≤ (s.cells p).index then M.ub else pure (s.cells p).lo

/-- `node_ref::high` (include/bdd_node.h:94). -/
def highOf (p : Nat) : M Mgr Nat := do
  let s ← M.get
  if !(s.cells p).live || topsinkIndex ≤ (s.cells p).index then M.ub else pure (s.cells p).hi

/-! ## Unique tables -/

/-- `var_struct::hash_code(l, r)` (bdd_var.cpp:166-169). -/
def hashCode (cells : Nat → Cell) (l h : Nat) : Nat := (cells l).hashKey ^^^ (2 * (cells h).hashKey)

/-- Loop of `next_free_slot` (bdd_var.cpp:22-29) from position `l`; `n` bounds the number of slots
still to be inspected: once all `mask+1` slots have been seen occupied the C++ loop never ends. -/
def probeFree (t : VarTable) : Nat → Nat → Except Stop Nat
  | 0, _ => .error .hang
  | n + 1, l =>
    let k := l &&& t.mask
    if t.cap ≤ k then .error .ub
    else match t.slots k with
      | none => .ok k
      | some _ => probeFree t n (l + 1)

/-- `var_struct::next_free_slot` (bdd_var.cpp:22-29). -/
def nextFreeSlot (t : VarTable) (k : Nat) : Except Stop Nat := probeFree t (t.mask + 1) k

/-- Loop of `unique_table_lookup` (bdd_var.cpp:181-193). -/
def probeKey (cells : Nat → Cell) (t : VarTable) (l h : Nat) : Nat → Nat → Except Stop (Option Nat)
  | 0, _ => .error .hang
  | n + 1, hash =>
    let k := hash &&& t.mask
    if t.cap ≤ k then .error .ub
    else match t.slots k with
      | none => .ok none
      | some p =>
        if !(cells p).live then .error .ub
        else if (cells p).lo = l ∧ (cells p).hi = h then .ok (some p)
        else probeKey cells t l h n (hash + 1)

/-- `var_struct::unique_table_lookup` (bdd_var.cpp:181-193). -/
def tableLookup (cells : Nat → Cell) (t : VarTable) (l h : Nat) : Except Stop (Option Nat) :=
  probeKey cells t l h (t.mask + 1) (hashCode cells l h)

/-- Number of null slots among `0..n-1`. -/
def countFree (slots : Nat → Option Nat) : Nat → Nat
  | 0 => 0
  | n + 1 => countFree slots n + (if (slots n).isNone then 1 else 0)

/-- `nr_free_slots_debug` (bdd_var.cpp:171-179). -/
def nrFreeSlots (t : VarTable) : Nat := countFree t.slots (t.mask + 1)

/-- The page sizes of `var_struct::new_page` (bdd_var.cpp:37-58): for each new mask the number of
slots of the page reserved. -/
def pageCapFor (mask : Nat) : Option Nat :=
  if mask = 63 then some 128
  else if mask = 127 then some 256
  else if mask = 255 then some 512
  else if mask = 511 then some 1024
  else if mask = 1023 then some 2048
  else if mask = 2047 then some 4096
  else if mask = 4095 then some 8192
  else if mask = 8191 then some 16384
  else if mask = 16383 then some 32768
  else if mask = 32767 then some 65536
  else if mask = 65535 then some 131072
  else if mask = 131071 then some 262144
  else if mask = 262143 then some 262144
  else if mask = 524287 then some 524288
  else none

/-- `var_struct::new_page` (bdd_var.cpp:37-58): returns the capacity of a page filled with null
pointers (the fill is bdd_var.h:174). Mask 1048575 throws; any other mask fails `assert(false)` and
without asserts runs off the end of a non-void function. -/
def newPage (cfg : Cfg) (mask : Nat) : M Mgr Nat :=
  match pageCapFor mask with
  | some c => pure c
  | none => if mask = 1048575 then M.throw else do M.assert cfg.ndebug false; M.ub

/-- The masks `var_struct::free_page` accepts (bdd_var.cpp:95-112). -/
def freePageOk (mask : Nat) : Bool := (pageCapFor mask).isSome || mask == 1048575

/-- Rehash loop of `var_struct::double_cache` (bdd_var.cpp:76-82): `n` old slots left, next one `k`. -/
def rehash (cells : Nat → Cell) (old : VarTable) : Nat → Nat → VarTable → Except Stop VarTable
  | _, 0, t => .ok t
  | k, n + 1, t =>
    if old.cap ≤ k then .error .ub
    else match old.slots k with
      | none => rehash cells old (k + 1) n t
      | some p =>
        match nextFreeSlot t (hashCode cells (cells p).lo (cells p).hi &&& t.mask) with
        | .ok i => rehash cells old (k + 1) n { t with slots := upd t.slots i (some p) }
        | .error e => .error e

def setTab (v : Nat) (t : VarTable) : M Mgr Unit :=
  M.modify fun s => { s with tabs := upd s.tabs v t }

/-- `var_struct::double_cache` (bdd_var.cpp:60-87). The mask is changed before `new_page` may throw. -/
def doubleCache (cfg : Cfg) (v : Nat) : M Mgr Unit := do
  let s ← M.get
  let t := s.tabs v
  if t.mask = 1048575 then pure () else do
  M.assert cfg.ndebug (t.free == nrFreeSlots t)
  let newMask := t.mask + t.mask + 1
  setTab v { t with mask := newMask }
  let cap ← newPage cfg newMask
  let t' ← M.lift (rehash s.cells t 0 (t.mask + 1)
    { t with mask := newMask, cap := cap, slots := fun _ => none })
  M.assert cfg.ndebug (freePageOk t.mask)
  setTab v { t' with free := t.free + (t.mask + 1) }

/-- `node_struct::init_new_node` (bdd_node.cpp:14-31). -/
def initNewNode (cfg : Cfg) (p v l h : Nat) : M Mgr Unit := do
  M.assert cfg.ndebug (v < 2 ^ 41)
  M.modify fun s =>
    let c1 := upd s.cells h { s.cells h with xref := (s.cells h).xref + 1 }
    let c2 := upd c1 l { c1 l with xref := (c1 l).xref + 1 }
    { s with
      cells := upd c2 p ⟨l, h, v, cfg.rng s.rngPos, 0, true⟩
      marks := upd s.marks p false
      rngPos := s.rngPos + 1 }

/-- `reserve_node` on the manager's pool (bdd_node_cache.cpp:34-64). -/
def reserveNode : M Mgr Nat := fun s =>
  let r := s.pool.reserve
  .ok r.1 { s with pool := r.2 }

/-- `occupied_rate() > max_unique_table_fill` (bdd_var.cpp:195-198, bdd_var.h:22). The doubles are
exact: the table size is a power of two not above 2^20, and the unsigned difference is compared
with half of it. -/
def overfull (t : VarTable) : Bool := t.mask + 1 < 2 * sub64 (t.mask + 1) t.free

/-- `if(occupied_rate() > max_unique_table_fill) double_cache();` (bdd_var.cpp:317-318). -/
def growIfNeeded (cfg : Cfg) (v : Nat) : M Mgr Unit := do
  let s ← M.get
  if overfull (s.tabs v) then doubleCache cfg v else pure ()

/-- Second half of `var_struct::unique_find` (bdd_var.cpp:316-327): grow, allocate, insert. -/
def insertNode (cfg : Cfg) (v l h : Nat) : M Mgr Nat := do
  growIfNeeded cfg v
  let p ← reserveNode
  initNewNode cfg p v l h
  let s2 ← M.get
  let t := s2.tabs v
  M.assert cfg.ndebug (0 < t.free)
  let k ← M.lift (nextFreeSlot t (hashCode s2.cells (s2.cells p).lo (s2.cells p).hi))
  setTab v { t with free := sub64 t.free 1, slots := upd t.slots k (some p) }
  pure p

/-- `var_struct::unique_find` (bdd_var.cpp:279-333). Every 1024th miss the C++ calls itself once more
(lines 308-313); `n` bounds this self-recursion (2 suffices, see `uniqueFind_spec`). -/
def uniqueFindAux (cfg : Cfg) (v l h : Nat) : Nat → M Mgr Nat
  | 0 => M.hang
  | n + 1 =>
    if l = h then pure l else do
    let s ← M.get
    let t := s.tabs v
    M.assert cfg.ndebug (63 ≤ t.mask)
    match ← M.lift (tableLookup s.cells t l h) with
    | some p => pure p
    | none => do
      setTab v { t with timer := t.timer + 1 }
      if (t.timer + 1) % 1024 = 0 then uniqueFindAux cfg v l h n
      else insertNode cfg v l h

/-- `vars[v].unique_find(l, h)`: indexing `vars` out of range is `ub`. -/
def uniqueFind (cfg : Cfg) (v l h : Nat) : M Mgr Nat := do
  let s ← M.get
  if s.nvars ≤ v then M.ub else uniqueFindAux cfg v l h 2

/-! ## Memo cache -/

/-- `memo_cache::cache_hash` (bdd_memo_cache.cpp:24-40) in 64-bit arithmetic. -/
def cacheHash (cells : Nat → Cell) (f g h : Nat) : Nat :=
  let fh := (cells f).hashKey
  let gh := ((cells g).hashKey * 2) % 2 ^ 64
  let hh := (h * 4) % 2 ^ 64
  let h1 := fh ^^^ ((gh + 0x9e3779b9 + (fh * 64) % 2 ^ 64 + fh / 4) % 2 ^ 64)
  h1 ^^^ ((hh + 0x9e3779b9 + (h1 * 64) % 2 ^ 64 + h1 / 4) % 2 ^ 64)

/-- `cache_hash` of a stored entry. -/
def entryHash (cells : Nat → Cell) (m : MemoEntry) : Nat :=
  cacheHash cells (m.f.getD 0) (m.g.getD 0) m.h

/-- One iteration of the rehash loop of `memo_cache::double_cache` (bdd_memo_cache.cpp:130-143). -/
def memoMove (cells : Nat → Cell) (mask : Nat) (e : Nat → MemoEntry) (k : Nat) : Nat → MemoEntry :=
  if (e k).r.isSome then
    let j := entryHash cells (e k) &&& mask
    if e j ≠ e k then upd (upd e j (e k)) k { e k with r := none } else e
  else e

/-- The rehash loop over the first `n` slots, with the count of occupied slots. -/
def memoRehash (cells : Nat → Cell) (mask : Nat) : Nat → (Nat → MemoEntry) → (Nat → MemoEntry) × Nat
  | 0, e => (e, 0)
  | n + 1, e =>
    let (e', occ) := memoRehash cells mask n e
    (memoMove cells mask e' n, occ + if (e' n).r.isSome then 1 else 0)

/-- `memo_cache::double_cache` (bdd_memo_cache.cpp:116-145). -/
def Memo.double (cells : Nat → Cell) (m : Memo) : Memo :=
  if 2 * 2 ^ 21 ≤ m.size then m else
  let e0 : Nat → MemoEntry := fun k => if k < m.size then m.entries k else emptyEntry
  let (e, occ) := memoRehash cells (2 * m.size - 1) m.size e0
  { entries := e, size := 2 * m.size, mask := 2 * m.size - 1, inserts := occ, threshold := 1 + m.size }

/-- `memo_cache::cache_lookup` (bdd_memo_cache.cpp:51-91). The branch for `xref < 0` contains
`assert(false)`; reviving the node afterwards is not modelled (`ub`); `xref` is never negative,
see the invariant. -/
def cacheLookup (cfg : Cfg) (f g h : Nat) : M Mgr (Option Nat) := do
  let s ← M.get
  M.assert cfg.ndebug (s.memo.mask + 1 == s.memo.size)
  let k := cacheHash s.cells f g h &&& s.memo.mask
  if s.memo.size ≤ k then M.ub else do
  let m := s.memo.entries k
  match m.r with
  | none => pure none
  | some r =>
    if m.f = some f ∧ m.g = some g ∧ m.h = h then do
      if (s.cells r).xref < 0 then do M.assert cfg.ndebug false; M.ub
      else pure (some r)
    else pure none

/-- `memo_cache::cache_insert` (bdd_memo_cache.cpp:93-107). -/
def cacheInsert (cfg : Cfg) (f g h r : Nat) : M Mgr Unit := do
  let s ← M.get
  let m := { s.memo with inserts := s.memo.inserts + 1 }
  let m := if m.threshold ≤ m.inserts then m.double s.cells else m
  M.assert cfg.ndebug (m.mask + 1 == m.size)
  let k := cacheHash s.cells f g h &&& m.mask
  if m.size ≤ k then M.ub else
  M.set { s with memo := { m with entries := upd m.entries k ⟨some f, some g, h, some r⟩ } }

/-! ## Boolean operations -/

/-- `vars[f.variable()]` (e.g. bdd_mgr.cpp:82): `ub` if the index is out of range (in particular for
a sink). -/
def varOf (p : Nat) : M Mgr Nat := do
  let s ← M.get
  let v := (s.cells p).index
  if s.nvars ≤ v then M.ub else pure v

/-- `&v == &f_var ? f.low() : f` -/
def lowIf (c : Bool) (p : Nat) : M Mgr Nat := if c then lowOf p else pure p
/-- `&v == &f_var ? f.high() : f` -/
def highIf (c : Bool) (p : Nat) : M Mgr Nat := if c then highOf p else pure p

/-- Common tail of `and_rec`, `or_rec` and `xor_rec` (bdd_mgr.cpp:78-100, 193-215, 236-255): memo
lookup, choice of the splitting variable by `pick`, two recursive calls, node construction, memo
insertion. -/
def meld (cfg : Cfg) (tag : Nat) (pick : Nat → Nat → Nat) (rec : Nat → Nat → M Mgr Nat) (f g : Nat) :
    M Mgr Nat := do
  match ← cacheLookup cfg f g tag with
  | some m => pure m
  | none => do
    let fv ← varOf f
    let gv ← varOf g
    let v := pick fv gv
    let f0 ← lowIf (v == fv) f
    let g0 ← lowIf (v == gv) g
    let r0 ← rec f0 g0
    let f1 ← highIf (v == fv) f
    let g1 ← highIf (v == gv) g
    let r1 ← rec f1 g1
    let r ← uniqueFind cfg v r0 r1
    cacheInsert cfg f g tag r
    pure r

/-- `[&]{ if(&f_var < &g_var) return f_var; else return g_var; }` (bdd_mgr.cpp:84-89, 200-205); the
`var` objects are elements of one vector, so addresses compare like indices. -/
def pickMin (fv gv : Nat) : Nat := if fv < gv then fv else gv

/-- `*std::max(&vg,&vf)` (bdd_mgr.cpp:245). -/
def pickMax (fv gv : Nat) : Nat := if gv < fv then fv else gv

/-- `bdd_mgr::and_rec(node_ref, node_ref)` (bdd_mgr.cpp:61-101). Temporary `node_ref`s inside the
operation change `xref` only temporarily and are not modelled. -/
def andRec (cfg : Cfg) : Nat → Nat → Nat → M Mgr Nat
  | 0, _, _ => M.hang
  | n + 1, f, g =>
    if f = g then pure f
    else if cfg.addr g < cfg.addr f then andRec cfg n g f
    else if f = topId then pure g
    else if f = botId then pure botId
    else if g = topId then pure f
    else if g = botId then pure botId
    else meld cfg andTag pickMin (andRec cfg n) f g

/-- `bdd_mgr::or_rec(node_ref, node_ref)` (bdd_mgr.cpp:164-216). -/
def orRec (cfg : Cfg) : Nat → Nat → Nat → M Mgr Nat
  | 0, _, _ => M.hang
  | n + 1, f, g =>
    if f = g then pure f
    else if cfg.addr g < cfg.addr f then orRec cfg n g f
    else if f = topId then pure topId
    else if f = botId then pure g
    else if g = topId then pure topId
    else if g = botId then pure f
    else meld cfg orTag pickMin (orRec cfg n) f g

/-- Evaluation of the two arguments of a C++ call; the order is up to the compiler. -/
def args2 (cfg : Cfg) (m1 m2 : M Mgr Nat) : M Mgr (Nat × Nat) :=
  if cfg.rtl then do
    let b ← m2
    let a ← m1
    pure (a, b)
  else do
    let a ← m1
    let b ← m2
    pure (a, b)

/-- `bdd_mgr::negate` (bdd_mgr.cpp:41-53). -/
def negateRec (cfg : Cfg) : Nat → Nat → M Mgr Nat
  | 0, _ => M.hang
  | n + 1, p => do
    if ← isBot cfg p then pure topId
    else if ← isTop cfg p then pure botId
    else do
      let s ← M.get
      let v := (s.cells p).index
      M.assert cfg.ndebug (v < s.nvars)
      let a ← args2 cfg (do let l ← lowOf p; negateRec cfg n l) (do let h ← highOf p; negateRec cfg n h)
      uniqueFind cfg v a.1 a.2

/-- Recursion bound used at the API entry points: no node is higher than the number of nodes ever
created. The theorems show the bound is never reached. -/
def fuel1 (s : Mgr) : Nat := s.rngPos + 1
def fuel2 (s : Mgr) : Nat := 4 * s.rngPos + 4

/-- `mgr.negate(p)` and `!p`. -/
def negateOp (cfg : Cfg) (p : Nat) : M Mgr Nat := do
  let s ← M.get
  negateRec cfg (fuel1 s) p

/-- `mgr.and_rec(f, g)` and `f & g`. -/
def andOp (cfg : Cfg) (f g : Nat) : M Mgr Nat := do
  let s ← M.get
  andRec cfg (fuel2 s) f g

/-- `mgr.or_rec(f, g)` and `f || g`. -/
def orOp (cfg : Cfg) (f g : Nat) : M Mgr Nat := do
  let s ← M.get
  orRec cfg (fuel2 s) f g

/-- `bdd_mgr::xor_rec(node_ref, node_ref)` (bdd_mgr.cpp:218-256). -/
def xorRec (cfg : Cfg) : Nat → Nat → Nat → M Mgr Nat
  | 0, _, _ => M.hang
  | n + 1, f, g =>
    if f = g then pure botId
    else if cfg.addr g < cfg.addr f then xorRec cfg n g f
    else if f = botId then pure g
    else if g = botId then pure f
    else if f = topId then negateOp cfg g
    else if g = topId then negateOp cfg f
    else meld cfg xorTag pickMax (xorRec cfg n) f g

/-- `mgr.xor_rec(f, g)` and `f ^ g`. -/
def xorOp (cfg : Cfg) (f g : Nat) : M Mgr Nat := do
  let s ← M.get
  xorRec cfg (fuel2 s) f g

/-- `v.is_terminal() ? vars.back() : vars[v.variable()]` (bdd_mgr.cpp:282-283), as an index into
`vars`. `vars.back()` of an empty vector is `ub`. -/
def varOrBack (cfg : Cfg) (p : Nat) : M Mgr Nat := do
  let t ← isTop cfg p
  let b ← isBot cfg p
  if t || b then do
    let s ← M.get
    if s.nvars = 0 then M.ub else pure (s.nvars - 1)
  else varOf p

/-- `bdd_mgr::ite_rec` (bdd_mgr.cpp:258-306). -/
def iteRec (cfg : Cfg) : Nat → Nat → Nat → Nat → M Mgr Nat
  | 0, _, _, _ => M.hang
  | n + 1, f, g, h => do
    if ← isTop cfg f then pure g
    else if ← isBot cfg f then pure h
    else if ← (if g = f then pure true else isTop cfg g) then orOp cfg f h
    else if ← (if h = f then pure true else isBot cfg h) then andOp cfg f g
    else if g = h then pure g
    else if ← (do if ← isBot cfg g then isTop cfg h else pure false) then xorOp cfg topId f
    else match ← cacheLookup cfg f g (cfg.addr h) with
    | some m => pure m
    | none => do
      let vf ← varOf f
      let vg ← varOrBack cfg g
      let vh ← varOrBack cfg h
      let v := min (min vf vg) vh
      let f0 ← lowIf (vf == v) f
      let g0 ← lowIf (vg == v) g
      let h0 ← lowIf (vh == v) h
      let r0 ← iteRec cfg n f0 g0 h0
      let f1 ← highIf (vf == v) f
      let g1 ← highIf (vg == v) g
      let h1 ← highIf (vh == v) h
      let r1 ← iteRec cfg n f1 g1 h1
      let r ← uniqueFind cfg v r0 r1
      cacheInsert cfg f g (cfg.addr h) r
      pure r

def fuel3 (s : Mgr) : Nat := 3 * s.rngPos + 1

/-- `mgr.ite_rec(f, g, h)`. -/
def iteOp (cfg : Cfg) (f g h : Nat) : M Mgr Nat := do
  let s ← M.get
  iteRec cfg (fuel3 s) f g h

/-! ## Variables and projections -/

/-- `bdd_mgr::add_variable` (bdd_mgr.cpp:19-24) and the `var_struct` constructor
(bdd_var.cpp:116-123). -/
def addVariable (cfg : Cfg) : M Mgr Nat := do
  let s ← M.get
  M.assert cfg.ndebug (s.nvars < 2 ^ 41)
  M.set { s with nvars := s.nvars + 1, tabs := upd s.tabs s.nvars ⟨63, 64, 0, 64, fun _ => none⟩ }
  pure s.nvars

/-- `for(size_t i=vars.size(); i<=var; ++i) add_variable();` -/
def addVariables (cfg : Cfg) : Nat → M Mgr Unit
  | 0 => pure ()
  | n + 1 => do
    let _ ← addVariable cfg
    addVariables cfg n

/-- Make sure variables `0..v` exist (bdd_mgr.cpp:28-29, bdd_mgr.h:105-106). -/
def ensureVar (cfg : Cfg) (v : Nat) : M Mgr Unit := do
  let s ← M.get
  addVariables cfg (v + 1 - s.nvars)

/-- `bdd_mgr::projection` (bdd_mgr.cpp:26-33). -/
def projection (cfg : Cfg) (v : Nat) : M Mgr Nat := do
  ensureVar cfg v
  uniqueFind cfg v botId topId

/-- `bdd_mgr::neg_projection` (bdd_mgr.cpp:35-39). -/
def negProjection (cfg : Cfg) (v : Nat) : M Mgr Nat := do
  let s ← M.get
  M.assert cfg.ndebug (v < s.nvars)
  uniqueFind cfg v topId botId

/-- `bdd_mgr::unique_find` (bdd_mgr.cpp:55-59). -/
def mgrUniqueFind (cfg : Cfg) (v l h : Nat) : M Mgr Nat := do
  let s ← M.get
  M.assert cfg.ndebug (v < s.nvars)
  uniqueFind cfg v l h

/-! ## Handles -/

/-- `node_ref::node_ref(node*)` / copy constructor (bdd_node.cpp:264-276). -/
def acquire (p : Nat) : M Mgr Unit :=
  M.modify fun s => { s with cells := upd s.cells p { s.cells p with xref := (s.cells p).xref + 1 } }

/-- `node_ref::~node_ref` (bdd_node.cpp:278-285). -/
def release (cfg : Cfg) (p : Nat) : M Mgr Unit := do
  let s ← M.get
  M.assert cfg.ndebug (0 < (s.cells p).xref)
  M.set { s with cells := upd s.cells p { s.cells p with xref := (s.cells p).xref - 1 } }

/-- `node_struct::evaluate` (include/bdd_node.h:133-147) on a sequence of bools; `ub` when the index
is past the end of the sequence. `n` bounds the path length. -/
def evaluateAux (cfg : Cfg) (s : Mgr) (x : List Bool) : Nat → Nat → Res Unit Bool
  | 0, _ => .hang
  | n + 1, p =>
    let c := s.cells p
    if !cfg.ndebug && ((c.index == topsinkIndex || c.index == botsinkIndex) != (c.lo == c.hi)) then
      .assertFail
    else if c.index = botsinkIndex then .ok false ()
    else if c.index = topsinkIndex then .ok true ()
    else if !c.live then .ub
    else match x[c.index]? with
      | none => if cfg.ndebug then .ub else .assertFail
      | some true => evaluateAux cfg s x n c.hi
      | some false => evaluateAux cfg s x n c.lo

/-- `node_ref::evaluate` (include/bdd_node.h:107). -/
def evaluate (cfg : Cfg) (s : Mgr) (p : Nat) (x : List Bool) : Res Unit Bool :=
  evaluateAux cfg s x (fuel1 s) p

end LBDD
