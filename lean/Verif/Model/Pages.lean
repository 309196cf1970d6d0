import Verif.Model.Mgr
/-!
# Model of the page pools of the unique tables

File modelled: include/bdd_var.h:26-68, 144-190 (`unique_table_page`, `unique_table_page_cache`, `unique_table_page_caches`), and the exchange of
pages between pools in src/bdd_var.cpp:37-58, 89-112.
-/
namespace LBDD

/-- The contents of one word of a page. `junk`: never written. -/
inductive Word where
  | junk
  | null
  | node (p : Nat)
  | page (p : Nat)
  deriving DecidableEq

/-- All page pools of a manager (bdd_var.h:51-68). Pages are numbered in the order of their allocation. `size p` is the number of words page `p`
was allocated with. Pool `n` is the one with `PAGE_SIZE = n`; `head n` is its `page_avail`, `blocks n` its `pages.size()`. The member
`next_available` of a page is a union with its first word (bdd_var.h:30-33). -/
structure PageSys where
  count : Nat
  size : Nat → Nat
  word : Nat → Nat → Word
  head : Nat → Option Nat
  blocks : Nat → Nat

/-- `unique_table_page_cache::unique_table_page_cache` for all pools (bdd_var.h:144-148). -/
def PageSys.init : PageSys := ⟨0, fun _ => 0, fun _ _ => .junk, fun _ => none, fun _ => 0⟩

/-- `unique_table_page_cache::nr_pages` (bdd_var.h:45); `nr n` is the template argument `NR_SIMUL_ALLOC` of pool `n`. -/
def PageSys.nrPages (nr : Nat → Nat) (y : PageSys) (n : Nat) : Nat := y.blocks n * nr n

/-- The template arguments used (bdd_var.h:53-67): `64,16384` … `1048576,1`. -/
def nrSimul (n : Nat) : Nat := 1048576 / n

def linkWord : Option Nat → Word
  | none => .null
  | some q => .page q

/-- The state after `increase_cache` on pool `n`: `nr n` new pages, linked in order (bdd_var.h:161-164). -/
def PageSys.grown (y : PageSys) (nr : Nat → Nat) (n : Nat) : PageSys where
  count := y.count + nr n
  size p := if y.count ≤ p ∧ p < y.count + nr n then n else y.size p
  word p i := if y.count ≤ p ∧ p < y.count + nr n then
      (if i = 0 then linkWord (if p + 1 < y.count + nr n then some (p + 1) else none) else .junk)
    else y.word p i
  head := upd y.head n (some y.count)
  blocks := upd y.blocks n (y.blocks n + 1)

/-- `unique_table_page_cache::increase_cache` (bdd_var.h:157-165). The default initialiser of `next_available` makes the link of the last page
null. -/
def increaseCache (cfg : Cfg) (nr : Nat → Nat) (n : Nat) : M PageSys Unit := do
  let y ← M.get
  M.assert cfg.ndebug (y.head n).isNone
  M.set (y.grown nr n)

/-- `unique_table_page_cache::reserve_page` (bdd_var.h:167-182). Following a link that is not a page pointer, and filling past the end of the page,
are `ub`. The function calls itself once after `increase_cache`; `fuel` bounds this. -/
def reservePage (cfg : Cfg) (nr : Nat → Nat) (n : Nat) : Nat → M PageSys Nat
  | 0 => M.hang
  | fuel + 1 => do
    let y ← M.get
    match y.head n with
    | some r =>
      let next : Option (Option Nat) := match y.word r 0 with
        | .null => some none
        | .page q => some (some q)
        | _ => none
      match next with
      | none => M.ub
      | some nx =>
        if y.size r < n then M.ub else do
        M.set { y with
          head := upd y.head n nx
          word := fun p i => if p = r ∧ i < n then .null else y.word p i }
        pure r
    | none => do
      increaseCache cfg nr n
      reservePage cfg nr n fuel

/-- `unique_table_page_cache::free_page` (bdd_var.h:184-189). -/
def freePage (n p : Nat) : M PageSys Unit := fun y =>
  if y.size p = 0 then .ub else
  .ok () { y with
    word := fun q i => if q = p ∧ i = 0 then linkWord (y.head n) else y.word q i
    head := upd y.head n (some p) }

/-- The pool that `var_struct::free_page` returns a page used with mask `mask` to (bdd_var.cpp:95-111). -/
def freePool (mask : Nat) : Option Nat := if freePageOk mask then some (mask + 1) else none

end LBDD
