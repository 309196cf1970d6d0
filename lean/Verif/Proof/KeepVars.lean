import Verif.Proof.Marks
import Verif.Spec.Heap
/-! Functions that leave the number of variables alone. -/
namespace LBDD
variable {α β : Type} {cfg : Cfg}

/-- The function does not change the number of variables. -/
class Nvk {α : Type} (m : M Mgr α) : Prop where
  at' : ∀ s a s', m s = .ok a s' → s'.nvars = s.nvars

theorem Nvk.pure (a : α) : Nvk (Pure.pure a : M Mgr α) := ⟨fun s b s' e => by cases e; rfl⟩
theorem Nvk.ub : Nvk (M.ub : M Mgr α) := ⟨fun s a s' e => by cases e⟩
theorem Nvk.hang : Nvk (M.hang : M Mgr α) := ⟨fun s a s' e => by cases e⟩
theorem Nvk.throw : Nvk (M.throw : M Mgr α) := ⟨fun s a s' e => by cases e⟩
theorem Nvk.assert (b c : Bool) : Nvk (M.assert b c : M Mgr Unit) := ⟨fun s a s' e => by
  unfold M.assert at e
  split at e
  · cases e; rfl
  · cases e⟩
theorem Nvk.lift (x : Except Stop α) : Nvk (M.lift x : M Mgr α) := ⟨fun s a s' e => by
  match x, e with
  | .ok _, e => cases e; rfl
  | .error .ub, e => cases e
  | .error .hang, e => cases e⟩
theorem Nvk.get : Nvk (M.get : M Mgr Mgr) := ⟨fun s a s' e => by cases e; rfl⟩
theorem Nvk.modify0 {g : Mgr → Mgr} (h : ∀ s, (g s).nvars = s.nvars) : Nvk (M.modify g) := ⟨fun s a s' e => by cases e; exact h s⟩
theorem Nvk.bind {m : M Mgr α} {f : α → M Mgr β} (hm : Nvk m) (hf : ∀ a, Nvk (f a)) : Nvk (m >>= f) := by
  refine ⟨fun s b s' e => ?_⟩
  obtain ⟨a, s1, e1, e2⟩ := bind_ok_inv e
  rw [(hf a).at' _ _ _ e2, hm.at' _ _ _ e1]

macro "nvk" : tactic => `(tactic| repeat' first
  | infer_instance
  | with_reducible exact Nvk.pure _
  | with_reducible exact Nvk.ub
  | with_reducible exact Nvk.hang
  | with_reducible exact Nvk.throw
  | with_reducible exact Nvk.assert _ _
  | with_reducible exact Nvk.lift _
  | with_reducible exact Nvk.get
  | ((with_reducible refine Nvk.modify0 ?_); exact fun _ => rfl)
  | (with_reducible refine Nvk.bind ?_ (fun _ => ?_))
  | split
  | (dsimp only))

instance cacheInsert_nvk (f g h r : Nat) : Nvk (cacheInsert cfg f g h r) := by rw [cacheInsert_flat]; nvk
instance release_nvk (p : Nat) : Nvk (release cfg p) := by rw [release_eq]; nvk
instance acquire_nvk (p : Nat) : Nvk (acquire p) := by unfold acquire; nvk
instance releaseNoAssert_nvk (p : Nat) : Nvk (releaseNoAssert p) := by unfold releaseNoAssert; nvk
instance isBot_nvk (p : Nat) : Nvk (isBot cfg p) := by unfold isBot; nvk
instance isTop_nvk (p : Nat) : Nvk (isTop cfg p) := by unfold isTop; nvk
instance isTerm_nvk (p : Nat) : Nvk (isTerm cfg p) := by unfold isTerm; nvk
instance lowOf_nvk (p : Nat) : Nvk (lowOf p) := by unfold lowOf; nvk
instance highOf_nvk (p : Nat) : Nvk (highOf p) := by unfold highOf; nvk
instance newPage_nvk (n : Nat) : Nvk (newPage cfg n) := by unfold newPage; nvk
instance setTab_nvk (v : Nat) (t : VarTable) : Nvk (setTab v t) := by unfold setTab; nvk
instance doubleCache_nvk (v : Nat) : Nvk (doubleCache cfg v) := by unfold doubleCache; nvk
instance growIfNeeded_nvk (v : Nat) : Nvk (growIfNeeded cfg v) := by unfold growIfNeeded; nvk
instance reserveNode_nvk : Nvk reserveNode := ⟨fun s a s' e => by unfold reserveNode at e; cases e; rfl⟩
instance initNewNode_nvk (p l h v : Nat) : Nvk (initNewNode cfg p l h v) := by
  unfold initNewNode; nvk
instance insertNode_nvk (v l h : Nat) : Nvk (insertNode cfg v l h) := by unfold insertNode; nvk
instance uniqueFindAux_nvk (v l h n : Nat) : Nvk (uniqueFindAux cfg v l h n) := by
  induction n with
  | zero => exact Nvk.hang
  | succ n ih => unfold uniqueFindAux; nvk
instance uniqueFind_nvk (v l h : Nat) : Nvk (uniqueFind cfg v l h) := by unfold uniqueFind; nvk
instance cacheLookup_nvk (f g h : Nat) : Nvk (cacheLookup cfg f g h) := by unfold cacheLookup; nvk
instance varOf_nvk (p : Nat) : Nvk (varOf p) := by unfold varOf; nvk
instance lowIf_nvk (c : Bool) (p : Nat) : Nvk (lowIf c p) := by unfold lowIf; nvk
instance highIf_nvk (c : Bool) (p : Nat) : Nvk (highIf c p) := by unfold highIf; nvk
instance meld_nvk (tag : Nat) (pick : Nat → Nat → Nat) (rec : Nat → Nat → M Mgr Nat) [∀ f g, Nvk (rec f g)] (f g : Nat) :
    Nvk (meld cfg tag pick rec f g) := by unfold meld; nvk
instance andRec_nvk (n f g : Nat) : Nvk (andRec cfg n f g) := by
  induction n generalizing f g with
  | zero => exact Nvk.hang
  | succ n ih => unfold andRec; nvk
instance orRec_nvk (n f g : Nat) : Nvk (orRec cfg n f g) := by
  induction n generalizing f g with
  | zero => exact Nvk.hang
  | succ n ih => unfold orRec; nvk
instance args2_nvk (m1 m2 : M Mgr Nat) [Nvk m1] [Nvk m2] : Nvk (args2 cfg m1 m2) := by unfold args2; nvk
instance args3_nvk (m1 m2 m3 : M Mgr Nat) [Nvk m1] [Nvk m2] [Nvk m3] : Nvk (args3 cfg m1 m2 m3) := by unfold args3; nvk
instance negateRec_nvk (n p : Nat) : Nvk (negateRec cfg n p) := by
  induction n generalizing p with
  | zero => exact Nvk.hang
  | succ n ih =>
    have h1 : Nvk (do let l ← lowOf p; negateRec cfg n l) := by nvk
    have h2 : Nvk (do let h ← highOf p; negateRec cfg n h) := by nvk
    unfold negateRec; nvk
instance negateOp_nvk (p : Nat) : Nvk (negateOp cfg p) := by unfold negateOp; nvk
instance andOp_nvk (f g : Nat) : Nvk (andOp cfg f g) := by unfold andOp; nvk
instance orOp_nvk (f g : Nat) : Nvk (orOp cfg f g) := by unfold orOp; nvk
instance xorRec_nvk (n f g : Nat) : Nvk (xorRec cfg n f g) := by
  induction n generalizing f g with
  | zero => exact Nvk.hang
  | succ n ih => unfold xorRec; nvk
instance xorOp_nvk (f g : Nat) : Nvk (xorOp cfg f g) := by unfold xorOp; nvk
instance varOrBack_nvk (p : Nat) : Nvk (varOrBack cfg p) := by unfold varOrBack; nvk
instance iteRec_nvk (n f g h : Nat) : Nvk (iteRec cfg n f g h) := by
  induction n generalizing f g h with
  | zero => exact Nvk.hang
  | succ n ih => unfold iteRec; nvk
instance iteOp_nvk (f g h : Nat) : Nvk (iteOp cfg f g h) := by unfold iteOp; nvk
instance negProjection_nvk (v : Nat) : Nvk (negProjection cfg v) := by unfold negProjection; nvk
instance mgrUniqueFind_nvk (v l h : Nat) : Nvk (mgrUniqueFind cfg v l h) := by unfold mgrUniqueFind; nvk
instance mapM'_nvk {α : Type} (f : α → M Mgr Nat) [∀ a, Nvk (f a)] (l : List α) : Nvk (mapM' f l) := by
  induction l with
  | nil => exact Nvk.pure _
  | cons a l ih => unfold mapM'; nvk
instance rangeRec_nvk (op : Nat → Nat → M Mgr Nat) [∀ a b, Nvk (op a b)] (n : Nat) (l : List Nat) : Nvk (rangeRec cfg op n l) := by
  induction n generalizing l with
  | zero => exact Nvk.hang
  | succ n ih => unfold rangeRec; nvk
instance variadic_nvk (op : Nat → Nat → M Mgr Nat) [∀ a b, Nvk (op a b)] (l : List Nat) : Nvk (variadic op l) := by
  induction l with
  | nil => exact Nvk.hang
  | cons a l ih =>
    cases l with
    | nil => exact Nvk.hang
    | cons b l => cases l <;> (unfold variadic; nvk)
instance andRange_nvk (l : List Nat) : Nvk (andRange cfg l) := by unfold andRange; nvk
instance orRange_nvk (l : List Nat) : Nvk (orRange cfg l) := by unfold orRange; nvk
instance xorRange_nvk (l : List Nat) : Nvk (xorRange cfg l) := by unfold xorRange; nvk
instance allFalseRec_nvk (n : Nat) (l : List Nat) : Nvk (allFalseRec cfg n l) := by
  induction n generalizing l with
  | zero => exact Nvk.hang
  | succ n ih => unfold allFalseRec; nvk
instance allFalse_nvk (l : List Nat) : Nvk (allFalse cfg l) := by unfold allFalse; nvk
instance orNeg_nvk (a b : Nat) : Nvk (orNeg cfg a b) := by unfold orNeg; nvk
instance atMostOneRec_nvk (n : Nat) (l : List Nat) : Nvk (atMostOneRec cfg n l) := by
  induction n generalizing l with
  | zero => exact Nvk.hang
  | succ n ih => unfold atMostOneRec; nvk
instance atMostOne_nvk (l : List Nat) : Nvk (atMostOne cfg l) := by unfold atMostOne; nvk
instance simplex_nvk (l : List Nat) : Nvk (simplex cfg l) := by unfold simplex; nvk
instance atLeastOne_nvk (l : List Nat) : Nvk (atLeastOne cfg l) := by unfold atLeastOne; nvk
theorem countRec_nvk (leaf : List Nat → Nat → Option (M Mgr Nat)) (hl : ∀ l b m, leaf l b = some m → Nvk m) (n : Nat) (l : List Nat) (b : Nat) :
    Nvk (countRec cfg leaf n l b) := by
  induction n generalizing l b with
  | zero => exact Nvk.hang
  | succ n ih =>
    unfold countRec
    refine Nvk.bind (Nvk.assert _ _) (fun _ => ?_)
    cases e : leaf l b with
    | some m => exact hl _ _ _ e
    | none => dsimp only; nvk
instance atLeast_nvk (l : List Nat) (b : Nat) : Nvk (atLeast cfg l b) := by
  refine countRec_nvk _ ?_ _ _ _
  intro l b m e
  unfold atLeastLeaf at e
  repeat' (split at e <;> try (cases e; nvk))
instance atMost_nvk (l : List Nat) (b : Nat) : Nvk (atMost cfg l b) := by
  refine countRec_nvk _ ?_ _ _ _
  intro l b m e
  unfold atMostLeaf at e
  repeat' (split at e <;> try (cases e; nvk))
instance cardinality_nvk (l : List Nat) (b : Nat) : Nvk (cardinality cfg l b) := by
  refine countRec_nvk _ ?_ _ _ _
  intro l b m e
  unfold cardLeaf at e
  repeat' (split at e <;> try (cases e; nvk))
instance exactlyOne_nvk (n p : Nat) : Nvk (exactlyOne cfg n p) := by
  induction n generalizing p with
  | zero => exact Nvk.hang
  | succ n ih => unfold exactlyOne; nvk
instance findMgr_nvk (n p : Nat) : Nvk (findMgr cfg n p) := by
  induction n generalizing p with
  | zero => exact Nvk.hang
  | succ n ih => unfold findMgr; nvk
instance exactlyOneSolution_nvk (p : Nat) : Nvk (exactlyOneSolution cfg p) := by unfold exactlyOneSolution; nvk
instance findBddMgr_nvk (p : Nat) : Nvk (findBddMgr cfg p) := by unfold findBddMgr; nvk
instance insOf_nvk (c : Coll) (i : Nat) : Nvk (insOf c i) := by
  refine ⟨fun s a s' e => ?_⟩
  unfold insOf at e; split at e <;> cases e; rfl
instance dlmOf_nvk (c : Coll) (i : Nat) : Nvk (dlmOf c i) := by
  refine ⟨fun s a s' e => ?_⟩
  unfold dlmOf at e; split at e <;> cases e; rfl
instance exportRef_nvk (c : Coll) (d0 d1 : Nat) (h : List (Nat × Nat)) (i : Nat) : Nvk (exportRef cfg c d0 d1 h i) := by unfold exportRef; nvk
instance exportLoop_nvk (c : Coll) (d0 d1 k : Nat) (h : List (Nat × Nat)) : Nvk (exportLoop cfg c d0 d1 k h) := by
  induction k generalizing h with
  | zero => exact Nvk.pure _
  | succ k ih => unfold exportLoop; nvk
instance exportBdd_nvk (c : Coll) (nr : Nat) : Nvk (exportBdd cfg c nr) := by unfold exportBdd; nvk
end LBDD
