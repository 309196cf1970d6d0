import Verif.Model.Mgr
/-!
# Model of garbage collection and of the destruction of a manager

Files modelled: src/bdd_var.cpp (remove_dead_nodes, release_nodes, destructor), src/bdd_memo_cache.cpp (purge),
src/bdd_mgr.cpp (collect_garbage, destructor).
-/
namespace LBDD

/-- `store_node(k, p)` in the table of variable `v` (bdd_var.cpp:31-35). -/
def storeSlot (v k : Nat) (p : Option Nat) : M Mgr Unit :=
  M.modify fun s => { s with tabs := upd s.tabs v { s.tabs v with slots := upd (s.tabs v).slots k p } }

/-- `free++` in the table of variable `v` (bdd_var.cpp:214, 229). -/
def incFree (v : Nat) : M Mgr Unit :=
  M.modify fun s => { s with tabs := upd s.tabs v { s.tabs v with free := (s.tabs v).free + 1 } }

/-- Inner loop of `var_struct::remove_dead_nodes` (bdd_var.cpp:217-237) from slot `j`; returns the `j` at which it stops.
A dead node it meets is unlinked but not given to `free_node`; a live node is stored a second time. `n` bounds the number of
iterations: the loop visits at most `mask+1` dead nodes and every other iteration fills a free slot, so that after at most
`3*(mask+1)` iterations it has stopped or is stuck in `next_free_slot` (`rdInner_fuel`). -/
def rdInner (v : Nat) : Nat → Nat → M Mgr Nat
  | 0, _ => M.hang
  | n + 1, j => do
    let s ← M.get
    let t := s.tabs v
    let jj := j &&& t.mask
    if t.cap ≤ jj then M.ub else
    match t.slots jj with
    | none => pure j
    | some p =>
      if (s.cells p).xref ≤ 0 then do
        storeSlot v jj none
        incFree v
        rdInner v n (j + 1)
      else if !(s.cells p).live then M.ub
      else do
        let k ← M.lift (nextFreeSlot t (hashCode s.cells (s.cells p).lo (s.cells p).hi))
        storeSlot v k (some p)
        rdInner v n (j + 1)

/-- Outer loop of `var_struct::remove_dead_nodes` (bdd_var.cpp:207-239) from slot `k`. The loop variable grows in every
iteration, so `mask+2` iterations suffice. -/
def rdOuter (cfg : Cfg) (v : Nat) : Nat → Nat → M Mgr Unit
  | 0, _ => M.hang
  | n + 1, k => do
    let s ← M.get
    let t := s.tabs v
    if t.mask < k then pure () else
    if t.cap ≤ k then M.ub else
    match t.slots k with
    | none => rdOuter cfg v n (k + 1)
    | some p =>
      if (s.cells p).xref ≤ 0 then do
        freeNode cfg p
        storeSlot v k none
        incFree v
        let j ← rdInner v (3 * (t.mask + 1) + 1) (k + 1)
        rdOuter cfg v n (j + 1)
      else rdOuter cfg v n (k + 1)

/-- `occupied_rate() <= min_unique_table_fill` (bdd_var.cpp:195-198, 242; bdd_var.h:21): the unsigned difference is compared with
an eighth of the table size; the doubles are exact for differences up to the table size, and a difference that wrapped around is
above every eighth. -/
def sparse (t : VarTable) : Bool := 8 * sub64 (t.mask + 1) t.free ≤ t.mask + 1

/-- The loop that chooses the new mask (bdd_var.cpp:244-249): `n /= (mask+1)/2 - 1` as long as `n >= 63` and
`occupied_rate(n) >= 1/8`. `n` decreases in every iteration (the divisor is at least 63); `fuel` is its start value. -/
def shrinkMask (t : VarTable) : Nat → Nat → Nat
  | 0, n => n
  | fuel + 1, n =>
    if 63 ≤ n ∧ n ≤ 8 * sub64 n t.free then shrinkMask t fuel (n / ((t.mask + 1) / 2 - 1)) else n

/-- The loop that moves nodes to the new page (bdd_var.cpp:253-271): `new_base[k]` (not `new_base[l]`) is tested, so that the
inner loop returns `k & new_mask` at once or never ends. -/
def shrinkMove (t : VarTable) (newMask cap : Nat) : Nat → Nat → (Nat → Option Nat) → Except Stop (Nat → Option Nat)
  | _, 0, nb => .ok nb
  | k, n + 1, nb =>
    if t.cap ≤ k then .error .ub
    else match t.slots k with
      | none => shrinkMove t newMask cap (k + 1) n nb
      | some p =>
        if cap ≤ k then .error .ub
        else match nb k with
          | some _ => .error .hang
          | none => shrinkMove t newMask cap (k + 1) n (upd nb (k &&& newMask) (some p))

/-- The second half of `var_struct::remove_dead_nodes` (bdd_var.cpp:241-276). -/
def shrinkTable (cfg : Cfg) (v : Nat) : M Mgr Unit := do
  let s ← M.get
  let t := s.tabs v
  if 63 < t.mask && sparse t then do
    let n0 := (t.mask + 1) / 2 - 1
    let newMask := shrinkMask t n0 n0
    let cap ← newPage cfg newMask
    let nb ← M.lift (shrinkMove t newMask cap 0 (t.mask + 1) (fun _ => none))
    M.assert cfg.ndebug (freePageOk t.mask)
    setTab v { t with mask := newMask, cap := cap, slots := nb }
  else pure ()

/-- `var_struct::remove_dead_nodes` (bdd_var.cpp:205-277). -/
def removeDeadNodes (cfg : Cfg) (v : Nat) : M Mgr Unit := do
  let s ← M.get
  rdOuter cfg v ((s.tabs v).mask + 2) 0
  shrinkTable cfg v

/-- `memo_struct::can_be_purged` (bdd_memo_cache.cpp:147-158). Entries with a result always have both operands
(`cache_insert` writes all four fields), hence the `getD`. -/
def MemoEntry.purgeable (cells : Nat → Cell) (m : MemoEntry) : Bool :=
  match m.r with
  | none => true
  | some r => (cells r).xref < 0 || (cells (m.f.getD 0)).xref < 0 || (m.h != 0 && (cells (m.g.getD 0)).xref < 0)

/-- `memo_cache::purge` (bdd_memo_cache.cpp:181-190); the code after the `return` is unreachable. -/
def purge : M Mgr Unit :=
  M.modify fun s => { s with memo := { s.memo with entries := fun k =>
    if k < s.memo.size ∧ (s.memo.entries k).purgeable s.cells then { s.memo.entries k with r := none } else s.memo.entries k } }

/-- The loop over the variables in `bdd_mgr::collect_garbage` (bdd_mgr.cpp:391-392), `n` variables left, next one `i`. -/
def gcVars (cfg : Cfg) : Nat → Nat → M Mgr Unit
  | 0, _ => pure ()
  | n + 1, i => do
    removeDeadNodes cfg i
    gcVars cfg n (i + 1)

/-- `bdd_mgr::collect_garbage` (bdd_mgr.cpp:389-395). -/
def collectGarbage (cfg : Cfg) : M Mgr Unit := do
  let s ← M.get
  gcVars cfg s.nvars 0
  purge

/-- Loop of `var_struct::release_nodes` (bdd_var.cpp:140-149): `n` slots left, next one `k`. -/
def releaseSlots (cfg : Cfg) (v : Nat) : Nat → Nat → M Mgr Unit
  | 0, _ => pure ()
  | n + 1, k => do
    let s ← M.get
    let t := s.tabs v
    if t.cap ≤ k then M.ub else
    match t.slots k with
    | none => do
      storeSlot v k none
      releaseSlots cfg v n (k + 1)
    | some p => do
      freeNode cfg p
      storeSlot v k none
      releaseSlots cfg v n (k + 1)

/-- The loop of `bdd_mgr::~bdd_mgr` (bdd_mgr.cpp:15-16). -/
def releaseVars (cfg : Cfg) : Nat → Nat → M Mgr Unit
  | 0, _ => pure ()
  | n + 1, i => do
    let s ← M.get
    releaseSlots cfg i ((s.tabs i).mask + 1) 0
    releaseVars cfg n (i + 1)

/-- `var_struct::~var_struct` for all variables (bdd_var.cpp:151-158): every slot must be null; `free_page` must know the size. -/
def destroyVars (cfg : Cfg) : Nat → Nat → M Mgr Unit
  | 0, _ => pure ()
  | n + 1, i => do
    let s ← M.get
    let t := s.tabs i
    M.assert cfg.ndebug (t.mask < 63 || (t.mask < t.cap && countFree t.slots (t.mask + 1) == t.mask + 1))
    M.assert cfg.ndebug (freePageOk t.mask)
    destroyVars cfg n (i + 1)

/-- `bdd_mgr::~bdd_mgr` (bdd_mgr.cpp:13-17) followed by the destruction of its members in reverse order
(include/bdd_mgr.h:92-95): the variables first, then memo cache, page cache and node cache, which only release memory. -/
def destroyMgr (cfg : Cfg) : M Mgr Unit := do
  let s ← M.get
  releaseVars cfg s.nvars 0
  destroyVars cfg s.nvars 0

end LBDD
