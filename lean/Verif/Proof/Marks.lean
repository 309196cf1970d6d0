import Verif.Proof.Sat
import Verif.Model.Api
/-! Functions that never read mark bits. -/
namespace LBDD

/-- States with mark bits. -/
class HasMarks (σ : Type) where
  wm : σ → (Nat → Bool) → σ
instance : HasMarks Mgr := ⟨fun s k => { s with marks := k }⟩
instance : HasMarks Api := ⟨fun a k => { a with mgr := { a.mgr with marks := k } }⟩

def withMarks {σ : Type} [HasMarks σ] (s : σ) (k : Nat → Bool) : σ := HasMarks.wm s k

def Res.onSt {σ α : Type} (f : σ → σ) : Res σ α → Res σ α
  | .ok a s => .ok a (f s)
  | .throw s => .throw (f s)
  | .assertFail => .assertFail
  | .ub => .ub
  | .hang => .hang

/-- Marks `k` after the marks in `D` were cleared. -/
def clr (D k : Nat → Bool) (q : Nat) : Bool := if D q then false else k q

/-- The outcome does not depend on the mark bits, which are left alone except that some set `D` of them is cleared. -/
def OblAt {σ α : Type} [HasMarks σ] (m : M σ α) (s : σ) : Prop := ∃ D : Nat → Bool, ∀ k, m (withMarks s k) = (m s).onSt (fun s' => withMarks s' (clr D k))
class Obl {σ α : Type} [HasMarks σ] (m : M σ α) : Prop where
  at' : ∀ s, OblAt m s

variable {σ α β : Type} [HasMarks σ] {cfg : Cfg}

theorem clr_none (k : Nat → Bool) : clr (fun _ => false) k = k := rfl
theorem clr_clr (D E k : Nat → Bool) : clr E (clr D k) = clr (fun q => D q || E q) k := by
  funext q; unfold clr; cases h1 : D q <;> cases h2 : E q <;> simp [h1, h2]

theorem Obl.pure (a : α) : Obl (Pure.pure a : M σ α) := ⟨fun _ => ⟨fun _ => false, fun _ => rfl⟩⟩
theorem Obl.ub : Obl (M.ub : M σ α) := ⟨fun _ => ⟨fun _ => false, fun _ => rfl⟩⟩
theorem Obl.hang : Obl (M.hang : M σ α) := ⟨fun _ => ⟨fun _ => false, fun _ => rfl⟩⟩
theorem Obl.throw : Obl (M.throw : M σ α) := ⟨fun _ => ⟨fun _ => false, fun _ => rfl⟩⟩
theorem Obl.assert (b c : Bool) : Obl (M.assert b c : M σ Unit) := ⟨fun s => ⟨fun _ => false, fun k => by
  unfold M.assert; split <;> rfl⟩⟩
theorem Obl.lift (e : Except Stop α) : Obl (M.lift e : M σ α) := ⟨fun _ => ⟨fun _ => false, fun _ => by
  match e with
  | .ok _ => rfl
  | .error .ub => rfl
  | .error .hang => rfl⟩⟩

theorem Obl.bind {m : M σ α} {f : α → M σ β} (hm : Obl m) (hf : ∀ a, Obl (f a)) : Obl (m >>= f) := by
  refine ⟨fun s => ?_⟩
  obtain ⟨D, hD⟩ := hm.at' s
  cases e : m s with
  | ok a s' =>
    obtain ⟨E, hE⟩ := (hf a).at' s'
    refine ⟨fun q => D q || E q, fun k => ?_⟩
    have := hD k
    show M.bind m f _ = (M.bind m f s).onSt _
    unfold M.bind
    rw [this, e]
    simp only [Res.onSt]
    rw [hE, clr_clr]
    rfl
  | throw s' =>
    refine ⟨D, fun k => ?_⟩
    show M.bind m f _ = (M.bind m f s).onSt _
    unfold M.bind
    rw [hD k, e]; rfl
  | assertFail =>
    refine ⟨D, fun k => ?_⟩
    show M.bind m f _ = (M.bind m f s).onSt _
    unfold M.bind
    rw [hD k, e]; rfl
  | ub =>
    refine ⟨D, fun k => ?_⟩
    show M.bind m f _ = (M.bind m f s).onSt _
    unfold M.bind
    rw [hD k, e]; rfl
  | hang =>
    refine ⟨D, fun k => ?_⟩
    show M.bind m f _ = (M.bind m f s).onSt _
    unfold M.bind
    rw [hD k, e]; rfl

theorem Obl.get_bind {f : σ → M σ β} (h : ∀ s k, f (withMarks s k) = f s) (hf : ∀ s, Obl (f s)) : Obl (M.get >>= f) := by
  refine ⟨fun s => ?_⟩
  obtain ⟨D, hD⟩ := (hf s).at' s
  refine ⟨D, fun k => ?_⟩
  show f (withMarks s k) (withMarks s k) = _
  rw [h, hD]
  rfl

theorem Obl.modify {g : σ → σ} (h : ∀ s, ∃ D : Nat → Bool, ∀ k, g (withMarks s k) = withMarks (g s) (clr D k)) : Obl (M.modify g) := by
  refine ⟨fun s => ?_⟩
  obtain ⟨D, hD⟩ := h s
  exact ⟨D, fun k => by show Res.ok () _ = _; rw [hD]; rfl⟩

theorem Obl.modify0 {g : σ → σ} (h : ∀ s k, g (withMarks s k) = withMarks (g s) k) : Obl (M.modify g) :=
  .modify fun s => ⟨fun _ => false, fun k => h s k⟩

macro "obl" : tactic => `(tactic| repeat' first
  | infer_instance
  | with_reducible exact Obl.pure _
  | with_reducible exact Obl.ub
  | with_reducible exact Obl.hang
  | with_reducible exact Obl.throw
  | with_reducible exact Obl.assert _ _
  | with_reducible exact Obl.lift _
  | ((with_reducible refine Obl.modify0 ?_); exact fun _ _ => rfl)
  | ((with_reducible refine Obl.get_bind ?_ (fun _ => ?_)); exact fun _ _ => rfl)
  | (with_reducible refine Obl.bind ?_ (fun _ => ?_))
  | split
  | (dsimp only))

theorem assert_congr {b c : Bool} {f g : Unit → M Mgr α} {s : Mgr} (h : f () s = g () s) :
    (M.assert b c >>= f) s = (M.assert b c >>= g) s := by
  show M.bind _ f s = M.bind _ g s
  unfold M.bind M.assert
  cases hb : (b || c) <;> simp [h]

theorem freeNode_eq (p : Nat) : freeNode cfg p = (do
    let s ← M.get
    let c := s.cells p
    if !c.live || topsinkIndex ≤ c.index then M.ub else do
    M.assert cfg.ndebug (c.xref ≤ 0)
    M.assert cfg.ndebug (0 < (s.cells c.lo).xref)
    let cells1 := upd s.cells c.lo { s.cells c.lo with xref := (s.cells c.lo).xref - 1 }
    M.assert cfg.ndebug (0 < (cells1 c.hi).xref)
    let cells2 := upd cells1 c.hi { cells1 c.hi with xref := (cells1 c.hi).xref - 1 }
    let cells3 := upd cells2 p { cells2 p with live := false }
    M.modify fun s' => { s' with cells := cells3, pool := s.pool.release p }) := by
  funext s
  unfold freeNode
  rw [M.get_bind_apply, M.get_bind_apply]
  simp only
  split
  · rfl
  · refine assert_congr (assert_congr (assert_congr ?_))
    rfl

theorem cacheInsert_flat (f g h r : Nat) : cacheInsert cfg f g h r = (do
    let s ← M.get
    let m := { s.memo with inserts := s.memo.inserts + 1 }
    let m := if m.threshold ≤ m.inserts then m.double s.cells else m
    M.assert cfg.ndebug (m.mask + 1 == m.size)
    let k := cacheHash s.cells f g h &&& m.mask
    if m.size ≤ k then M.ub else
    M.modify fun s' => { s' with memo := { m with entries := upd m.entries k ⟨some f, some g, h, some r⟩ } }) := by
  funext s
  unfold cacheInsert
  rw [M.get_bind_apply, M.get_bind_apply]
  refine assert_congr ?_
  dsimp only
  generalize (if (_ : Nat) ≤ _ then Memo.double _ _ else _) = m
  split <;> rfl

theorem addVariable_eq : addVariable cfg = (do
    let s ← M.get
    M.assert cfg.ndebug (s.nvars < 2 ^ 41)
    M.modify fun s' => { s' with nvars := s.nvars + 1, tabs := upd s.tabs s.nvars ⟨63, 64, 0, 64, fun _ => none⟩ }
    pure s.nvars) := by
  funext s
  unfold addVariable
  rw [M.get_bind_apply, M.get_bind_apply]
  refine assert_congr ?_
  rfl

theorem release_eq (p : Nat) : release cfg p = (do
    let s ← M.get
    M.assert cfg.ndebug (0 < (s.cells p).xref)
    M.modify fun s' => { s' with cells := upd s.cells p { s.cells p with xref := (s.cells p).xref - 1 } }) := by
  funext s
  unfold release
  rw [M.get_bind_apply, M.get_bind_apply]
  refine assert_congr ?_
  rfl

instance freeNode_obl (p : Nat) : Obl (freeNode cfg p) := by rw [freeNode_eq]; obl
instance cacheInsert_obl (f g h r : Nat) : Obl (cacheInsert cfg f g h r) := by rw [cacheInsert_flat]; obl
instance addVariable_obl  : Obl (addVariable cfg) := by rw [addVariable_eq]; obl
instance release_obl (p : Nat) : Obl (release cfg p) := by rw [release_eq]; obl
instance acquire_obl (p : Nat) : Obl (acquire p) := by unfold acquire; obl
instance releaseNoAssert_obl (p : Nat) : Obl (releaseNoAssert p) := by unfold releaseNoAssert; obl
instance isBot_obl (p : Nat) : Obl (isBot cfg p) := by unfold isBot; obl
instance isTop_obl (p : Nat) : Obl (isTop cfg p) := by unfold isTop; obl
instance isTerm_obl (p : Nat) : Obl (isTerm cfg p) := by unfold isTerm; obl
instance lowOf_obl (p : Nat) : Obl (lowOf p) := by unfold lowOf; obl
instance highOf_obl (p : Nat) : Obl (highOf p) := by unfold highOf; obl
instance newPage_obl (n : Nat) : Obl (newPage cfg n) := by unfold newPage; obl
instance setTab_obl (v : Nat) (t : VarTable) : Obl (setTab v t) := by unfold setTab; obl
instance doubleCache_obl (v : Nat) : Obl (doubleCache cfg v) := by unfold doubleCache; obl
instance initNewNode_obl (p v l h : Nat) : Obl (initNewNode cfg p v l h) := by
  unfold initNewNode
  refine Obl.bind (Obl.assert _ _) (fun _ => Obl.modify fun s => ⟨fun q => q == p, fun k => ?_⟩)
  have : upd k p false = clr (fun q => q == p) k := by
    funext q
    unfold upd clr
    by_cases h : q = p <;> simp [h]
  show ({ s with cells := _, marks := upd k p false, rngPos := _ } : Mgr) = _
  rw [this]; rfl
instance reserveNode_obl : Obl reserveNode := ⟨fun _ => ⟨fun _ => false, fun _ => rfl⟩⟩
instance growIfNeeded_obl (v : Nat) : Obl (growIfNeeded cfg v) := by unfold growIfNeeded; obl
instance insertNode_obl (v l h : Nat) : Obl (insertNode cfg v l h) := by unfold insertNode; obl
instance uniqueFindAux_obl (v l h n : Nat) : Obl (uniqueFindAux cfg v l h n) := by
  induction n with
  | zero => exact Obl.hang
  | succ n ih => unfold uniqueFindAux; obl
instance uniqueFind_obl (v l h : Nat) : Obl (uniqueFind cfg v l h) := by unfold uniqueFind; obl
instance cacheLookup_obl (f g h : Nat) : Obl (cacheLookup cfg f g h) := by unfold cacheLookup; obl
instance varOf_obl (p : Nat) : Obl (varOf p) := by unfold varOf; obl
instance lowIf_obl (c : Bool) (p : Nat) : Obl (lowIf c p) := by unfold lowIf; obl
instance highIf_obl (c : Bool) (p : Nat) : Obl (highIf c p) := by unfold highIf; obl
instance meld_obl (tag : Nat) (pick : Nat → Nat → Nat) (rec : Nat → Nat → M Mgr Nat) [∀ f g, Obl (rec f g)] (f g : Nat) :
    Obl (meld cfg tag pick rec f g) := by unfold meld; obl
instance andRec_obl (n f g : Nat) : Obl (andRec cfg n f g) := by
  induction n generalizing f g with
  | zero => exact Obl.hang
  | succ n ih => unfold andRec; obl
instance orRec_obl (n f g : Nat) : Obl (orRec cfg n f g) := by
  induction n generalizing f g with
  | zero => exact Obl.hang
  | succ n ih => unfold orRec; obl
instance args2_obl (m1 m2 : M Mgr Nat) [Obl m1] [Obl m2] : Obl (args2 cfg m1 m2) := by unfold args2; obl
instance args3_obl (m1 m2 m3 : M Mgr Nat) [Obl m1] [Obl m2] [Obl m3] : Obl (args3 cfg m1 m2 m3) := by unfold args3; obl
instance negateRec_obl (n p : Nat) : Obl (negateRec cfg n p) := by
  induction n generalizing p with
  | zero => exact Obl.hang
  | succ n ih =>
    have h1 : Obl (do let l ← lowOf p; negateRec cfg n l) := by obl
    have h2 : Obl (do let h ← highOf p; negateRec cfg n h) := by obl
    unfold negateRec; obl
instance negateOp_obl (p : Nat) : Obl (negateOp cfg p) := by unfold negateOp; obl
instance andOp_obl (f g : Nat) : Obl (andOp cfg f g) := by unfold andOp; obl
instance orOp_obl (f g : Nat) : Obl (orOp cfg f g) := by unfold orOp; obl
instance xorRec_obl (n f g : Nat) : Obl (xorRec cfg n f g) := by
  induction n generalizing f g with
  | zero => exact Obl.hang
  | succ n ih => unfold xorRec; obl
instance xorOp_obl (f g : Nat) : Obl (xorOp cfg f g) := by unfold xorOp; obl
instance varOrBack_obl (p : Nat) : Obl (varOrBack cfg p) := by unfold varOrBack; obl
instance iteRec_obl (n f g h : Nat) : Obl (iteRec cfg n f g h) := by
  induction n generalizing f g h with
  | zero => exact Obl.hang
  | succ n ih => unfold iteRec; obl
instance iteOp_obl (f g h : Nat) : Obl (iteOp cfg f g h) := by unfold iteOp; obl
instance addVariables_obl (n : Nat) : Obl (addVariables cfg n) := by
  induction n with
  | zero => exact Obl.pure _
  | succ n ih => unfold addVariables; obl
instance ensureVar_obl (v : Nat) : Obl (ensureVar cfg v) := by unfold ensureVar; obl
instance projection_obl (v : Nat) : Obl (projection cfg v) := by unfold projection; obl
instance negProjection_obl (v : Nat) : Obl (negProjection cfg v) := by unfold negProjection; obl
instance mgrUniqueFind_obl (v l h : Nat) : Obl (mgrUniqueFind cfg v l h) := by unfold mgrUniqueFind; obl
instance mapM'_obl {α : Type} (f : α → M Mgr Nat) [∀ a, Obl (f a)] (l : List α) : Obl (mapM' f l) := by
  induction l with
  | nil => exact Obl.pure _
  | cons a l ih => unfold mapM'; obl
instance rangeRec_obl (op : Nat → Nat → M Mgr Nat) [∀ a b, Obl (op a b)] (n : Nat) (l : List Nat) : Obl (rangeRec cfg op n l) := by
  induction n generalizing l with
  | zero => exact Obl.hang
  | succ n ih => unfold rangeRec; obl
instance variadic_obl (op : Nat → Nat → M Mgr Nat) [∀ a b, Obl (op a b)] (l : List Nat) : Obl (variadic op l) := by
  induction l with
  | nil => exact Obl.hang
  | cons a l ih =>
    cases l with
    | nil => exact Obl.hang
    | cons b l => cases l <;> (unfold variadic; obl)
instance andRange_obl (l : List Nat) : Obl (andRange cfg l) := by unfold andRange; obl
instance orRange_obl (l : List Nat) : Obl (orRange cfg l) := by unfold orRange; obl
instance xorRange_obl (l : List Nat) : Obl (xorRange cfg l) := by unfold xorRange; obl
instance allFalseRec_obl (n : Nat) (l : List Nat) : Obl (allFalseRec cfg n l) := by
  induction n generalizing l with
  | zero => exact Obl.hang
  | succ n ih => unfold allFalseRec; obl
instance allFalse_obl (l : List Nat) : Obl (allFalse cfg l) := by unfold allFalse; obl
instance orNeg_obl (a b : Nat) : Obl (orNeg cfg a b) := by unfold orNeg; obl
instance atMostOneRec_obl (n : Nat) (l : List Nat) : Obl (atMostOneRec cfg n l) := by
  induction n generalizing l with
  | zero => exact Obl.hang
  | succ n ih => unfold atMostOneRec; obl
instance atMostOne_obl (l : List Nat) : Obl (atMostOne cfg l) := by unfold atMostOne; obl
instance simplex_obl (l : List Nat) : Obl (simplex cfg l) := by unfold simplex; obl
instance atLeastOne_obl (l : List Nat) : Obl (atLeastOne cfg l) := by unfold atLeastOne; obl
theorem countRec_obl (leaf : List Nat → Nat → Option (M Mgr Nat)) (hl : ∀ l b m, leaf l b = some m → Obl m) (n : Nat) (l : List Nat) (b : Nat) :
    Obl (countRec cfg leaf n l b) := by
  induction n generalizing l b with
  | zero => exact Obl.hang
  | succ n ih =>
    unfold countRec
    refine Obl.bind (Obl.assert _ _) (fun _ => ?_)
    cases e : leaf l b with
    | some m => exact hl _ _ _ e
    | none => dsimp only; obl
instance atLeast_obl (l : List Nat) (b : Nat) : Obl (atLeast cfg l b) := by
  refine countRec_obl _ ?_ _ _ _
  intro l b m e
  unfold atLeastLeaf at e
  repeat' (split at e <;> try (cases e; obl))
instance atMost_obl (l : List Nat) (b : Nat) : Obl (atMost cfg l b) := by
  refine countRec_obl _ ?_ _ _ _
  intro l b m e
  unfold atMostLeaf at e
  repeat' (split at e <;> try (cases e; obl))
instance cardinality_obl (l : List Nat) (b : Nat) : Obl (cardinality cfg l b) := by
  refine countRec_obl _ ?_ _ _ _
  intro l b m e
  unfold cardLeaf at e
  repeat' (split at e <;> try (cases e; obl))
instance exactlyOne_obl (n p : Nat) : Obl (exactlyOne cfg n p) := by
  induction n generalizing p with
  | zero => exact Obl.hang
  | succ n ih => unfold exactlyOne; obl
instance findMgr_obl (n p : Nat) : Obl (findMgr cfg n p) := by
  induction n generalizing p with
  | zero => exact Obl.hang
  | succ n ih => unfold findMgr; obl
instance exactlyOneSolution_obl (p : Nat) : Obl (exactlyOneSolution cfg p) := by unfold exactlyOneSolution; obl
instance findBddMgr_obl (p : Nat) : Obl (findBddMgr cfg p) := by unfold findBddMgr; obl
instance rdInner_obl (v n j : Nat) : Obl (rdInner v n j) := by
  induction n generalizing j with
  | zero => exact Obl.hang
  | succ n ih => unfold rdInner storeSlot incFree; obl
instance rdOuter_obl (v n k : Nat) : Obl (rdOuter cfg v n k) := by
  induction n generalizing k with
  | zero => exact Obl.hang
  | succ n ih => unfold rdOuter storeSlot incFree; obl
instance shrinkTable_obl (v : Nat) : Obl (shrinkTable cfg v) := by unfold shrinkTable; obl
instance removeDeadNodes_obl (v : Nat) : Obl (removeDeadNodes cfg v) := by unfold removeDeadNodes; obl
instance purge_obl : Obl purge := by unfold purge; obl
instance gcVars_obl (n i : Nat) : Obl (gcVars cfg n i) := by
  induction n generalizing i with
  | zero => exact Obl.pure _
  | succ n ih => unfold gcVars; obl
instance collectGarbage_obl : Obl (collectGarbage cfg) := by unfold collectGarbage; obl
instance insOf_obl (c : Coll) (i : Nat) : Obl (insOf c i) := by
  unfold insOf; split <;> exact ⟨fun _ => ⟨fun _ => false, fun _ => rfl⟩⟩
instance dlmOf_obl (c : Coll) (i : Nat) : Obl (dlmOf c i) := by
  unfold dlmOf; split <;> exact ⟨fun _ => ⟨fun _ => false, fun _ => rfl⟩⟩
instance exportRef_obl (c : Coll) (d0 d1 : Nat) (h : List (Nat × Nat)) (i : Nat) : Obl (exportRef cfg c d0 d1 h i) := by unfold exportRef; obl
instance exportLoop_obl (c : Coll) (d0 d1 k : Nat) (h : List (Nat × Nat)) : Obl (exportLoop cfg c d0 d1 k h) := by
  induction k generalizing h with
  | zero => exact Obl.pure _
  | succ k ih => unfold exportLoop; obl
instance importLoop_obl (c : Coll) (d0 k : Nat) (h : List (Nat × Nat)) : Obl (importLoop cfg c d0 k h) := by
  induction k generalizing h with
  | zero => exact Obl.pure _
  | succ k ih => unfold importLoop; obl
instance exportBdd_obl (c : Coll) (nr : Nat) : Obl (exportBdd cfg c nr) := by unfold exportBdd; obl
instance mgrAddBdd_obl (c : Coll) (nr : Nat) : Obl (mgrAddBdd cfg c nr) := by unfold mgrAddBdd; obl

section
/-! ### traversals -/

/-- Calls that read or write mark bits. -/
def Fn.walks : Fn → Bool
  | .rebaseMap _ | .rebaseVec _ | .andLimited _ | .nrNodes | .nodesPostorder | .nodesBfs | .variables | .print => true
  | _ => false

theorem Fn.run_obl (f : Fn) (hf : f.walks = false) (ps : List Nat) : Obl (f.run cfg ps) := by
  unfold Fn.run
  split <;> first | (cases hf; done) | obl

/-! ### the API machine -/

theorem onMgr_obl {m : M Mgr α} [hm : Obl m] : Obl (onMgr m) := by
  refine ⟨fun a => ?_⟩
  obtain ⟨D, hD⟩ := hm.at' a.mgr
  refine ⟨D, fun k => ?_⟩
  have := hD k
  show (match m (withMarks a.mgr k) with | .ok r s => _ | .throw s => _ | .assertFail => _ | .ub => _ | .hang => _) = Res.onSt _ (match m a.mgr with | .ok r s => _ | .throw s => _ | .assertFail => _ | .ub => _ | .hang => _)
  rw [this]
  cases m a.mgr <;> rfl

instance optM_obl [HasMarks σ] (o : Option Nat) (f : Nat → M σ Unit) [∀ p, Obl (f p)] : Obl (optM o f) := by
  unfold optM; obl

instance pushHandles_obl (ps : List Nat) : Obl (pushHandles ps) := by
  induction ps with
  | nil => exact Obl.pure _
  | cons p ps ih =>
    have h1 := onMgr_obl (m := acquire p)
    unfold pushHandles pushHandle
    obl

def Op.walks : Op → Bool
  | .call f _ => f.walks
  | _ => false

theorem step_obl (op : Op) (h : op.walks = false) : Obl (step cfg op) := by
  cases op with
  | call f is =>
    have h1 := fun ps => Fn.run_obl (cfg := cfg) f h ps
    have h2 := fun ps => onMgr_obl (m := f.run cfg ps)
    unfold step; obl
  | copy i =>
    have h1 := fun o => onMgr_obl (m := optM o acquire)
    unfold step; obl
  | move i =>
    refine ⟨fun a => ⟨fun _ => false, fun k => ?_⟩⟩
    simp only [step]
    rw [M.get_bind_apply, M.get_bind_apply]
    have hh : (withMarks a k).hs[i]? = a.hs[i]? := rfl
    rw [hh]
    cases a.hs[i]? <;> rfl
  | assign i j =>
    have h1 := fun o => onMgr_obl (m := optM o acquire)
    have h2 := fun o => onMgr_obl (m := optM o releaseNoAssert)
    unfold step; obl
  | drop i =>
    have h1 := fun o => onMgr_obl (m := optM o (release cfg))
    unfold step; obl
  | gc => exact onMgr_obl
end

end LBDD
