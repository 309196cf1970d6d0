import Verif.Model.Cost
/-!
# Numbers of calls and of lost cache entries of the memoised operations

`and_rec`, `or_rec`, `xor_rec` and `ite_rec` once more, with a counter that is increased by `wc` at the start of every call and by `we` for every entry
of another key that an insertion into the memo cache overwrites. With `wc = 1, we = 0` the counter is the number of calls, with `wc = 0, we = 1` the
number of overwritten entries. Theorems in Proof/CostOps.lean show that without the counter they are the functions of Model/Mgr.lean.
-/
namespace LBDD

/-- Count `n` events. -/
def MK.ticks {σ : Type} (n : Nat) : MK σ Unit := fun s => (.ok () s, n)

/-- The cache just before `memo_cache::cache_insert` writes the entry: grown if the threshold is reached (bdd_memo_cache.cpp:95-98). -/
def Memo.ready (cells : Nat → Cell) (m : Memo) : Memo :=
  if m.threshold ≤ m.inserts + 1 then Memo.double cells { m with inserts := m.inserts + 1 } else { m with inserts := m.inserts + 1 }

/-- Number (0 or 1) of entries of another key that `cache_insert(f, g, h, ...)` overwrites (bdd_memo_cache.cpp:93-107). -/
def evicted (s : Mgr) (f g h : Nat) : Nat :=
  let m := s.memo.ready s.cells
  let e := m.entries (cacheHash s.cells f g h &&& m.mask)
  if e.r.isSome = true ∧ ¬ (e.f = some f ∧ e.g = some g ∧ e.h = h) then 1 else 0

/-- `cache_insert`, counting overwritten entries. -/
def cacheInsertK (cfg : Cfg) (we f g h r : Nat) : MK Mgr Unit := do
  let s ← .of M.get
  MK.ticks (we * evicted s f g h)
  .of (cacheInsert cfg f g h r)

/-- Common tail of `and_rec`, `or_rec` and `xor_rec` (bdd_mgr.cpp:78-100, 193-215, 236-255), as `meld`. -/
def meldK (cfg : Cfg) (we tag : Nat) (pick : Nat → Nat → Nat) (rec : Nat → Nat → MK Mgr Nat) (f g : Nat) : MK Mgr Nat := do
  match ← .of (cacheLookup cfg f g tag) with
  | some m => pure m
  | none => do
    let fv ← .of (varOf f)
    let gv ← .of (varOf g)
    let v := pick fv gv
    let f0 ← .of (lowIf (v == fv) f)
    let g0 ← .of (lowIf (v == gv) g)
    let r0 ← rec f0 g0
    let f1 ← .of (highIf (v == fv) f)
    let g1 ← .of (highIf (v == gv) g)
    let r1 ← rec f1 g1
    let r ← .of (uniqueFind cfg v r0 r1)
    cacheInsertK cfg we f g tag r
    pure r

/-- `bdd_mgr::and_rec(node_ref, node_ref)` (bdd_mgr.cpp:61-101). -/
def andRecK (cfg : Cfg) (wc we : Nat) : Nat → Nat → Nat → MK Mgr Nat
  | 0, _, _ => .of M.hang
  | n + 1, f, g => do
    MK.ticks wc
    if f = g then pure f
    else if cfg.addr g < cfg.addr f then andRecK cfg wc we n g f
    else if f = topId then pure g
    else if f = botId then pure botId
    else if g = topId then pure f
    else if g = botId then pure botId
    else meldK cfg we andTag pickMin (andRecK cfg wc we n) f g

/-- `bdd_mgr::or_rec(node_ref, node_ref)` (bdd_mgr.cpp:164-216). -/
def orRecK (cfg : Cfg) (wc we : Nat) : Nat → Nat → Nat → MK Mgr Nat
  | 0, _, _ => .of M.hang
  | n + 1, f, g => do
    MK.ticks wc
    if f = g then pure f
    else if cfg.addr g < cfg.addr f then orRecK cfg wc we n g f
    else if f = topId then pure topId
    else if f = botId then pure g
    else if g = topId then pure topId
    else if g = botId then pure f
    else meldK cfg we orTag pickMin (orRecK cfg wc we n) f g

/-- `bdd_mgr::xor_rec(node_ref, node_ref)` (bdd_mgr.cpp:218-256); the calls of `negate` are not counted here (see `negateRecK`). -/
def xorRecK (cfg : Cfg) (wc we : Nat) : Nat → Nat → Nat → MK Mgr Nat
  | 0, _, _ => .of M.hang
  | n + 1, f, g => do
    MK.ticks wc
    if f = g then pure botId
    else if cfg.addr g < cfg.addr f then xorRecK cfg wc we n g f
    else if f = botId then pure g
    else if g = botId then pure f
    else if f = topId then .of (negateOp cfg g)
    else if g = topId then .of (negateOp cfg f)
    else meldK cfg we xorTag pickMax (xorRecK cfg wc we n) f g

/-- `mgr.and_rec(f, g)`. -/
def andOpK (cfg : Cfg) (wc we f g : Nat) : MK Mgr Nat := do
  let s ← .of M.get
  andRecK cfg wc we (fuel2 s) f g

/-- `mgr.or_rec(f, g)`. -/
def orOpK (cfg : Cfg) (wc we f g : Nat) : MK Mgr Nat := do
  let s ← .of M.get
  orRecK cfg wc we (fuel2 s) f g

/-- `mgr.xor_rec(f, g)`. -/
def xorOpK (cfg : Cfg) (wc we f g : Nat) : MK Mgr Nat := do
  let s ← .of M.get
  xorRecK cfg wc we (fuel2 s) f g

/-- `bdd_mgr::ite_rec` (bdd_mgr.cpp:258-306). `wc` counts the calls of `ite_rec` itself, not those of `or_rec`, `and_rec` and `xor_rec` in its base cases; `we`
counts the overwritten cache entries of these, too. -/
def iteRecK (cfg : Cfg) (wc we : Nat) : Nat → Nat → Nat → Nat → MK Mgr Nat
  | 0, _, _, _ => .of M.hang
  | n + 1, f, g, h => do
    MK.ticks wc
    if ← .of (isTop cfg f) then pure g
    else if ← .of (isBot cfg f) then pure h
    else if ← .of (if g = f then pure true else isTop cfg g) then orOpK cfg 0 we f h
    else if ← .of (if h = f then pure true else isBot cfg h) then andOpK cfg 0 we f g
    else if g = h then pure g
    else if ← .of (do if ← isBot cfg g then isTop cfg h else pure false) then xorOpK cfg 0 we topId f
    else match ← .of (cacheLookup cfg f g (cfg.addr h)) with
    | some m => pure m
    | none => do
      let vf ← .of (varOf f)
      let vg ← .of (varOrBack cfg g)
      let vh ← .of (varOrBack cfg h)
      let v := min (min vf vg) vh
      let f0 ← .of (lowIf (vf == v) f)
      let g0 ← .of (lowIf (vg == v) g)
      let h0 ← .of (lowIf (vh == v) h)
      let r0 ← iteRecK cfg wc we n f0 g0 h0
      let f1 ← .of (highIf (vf == v) f)
      let g1 ← .of (highIf (vg == v) g)
      let h1 ← .of (highIf (vh == v) h)
      let r1 ← iteRecK cfg wc we n f1 g1 h1
      let r ← .of (uniqueFind cfg v r0 r1)
      cacheInsertK cfg we f g (cfg.addr h) r
      pure r

/-- `mgr.ite_rec(f, g, h)`. -/
def iteOpK (cfg : Cfg) (wc we f g h : Nat) : MK Mgr Nat := do
  let s ← .of M.get
  iteRecK cfg wc we (fuel3 s) f g h

end LBDD
