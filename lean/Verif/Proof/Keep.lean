import Verif.Proof.Marks
import Verif.Spec.Heap
/-! Functions that write mark bits only of nodes they take from the pool. -/
namespace LBDD

/-- The pool may hand out node `q`. -/
def Avail (s : Mgr) (q : Nat) : Prop := q ∈ s.pool.avail ∨ s.pool.hw ≤ q
def PoolW (s : Mgr) : Prop := s.pool.off ≤ 4096 ∧ 1 ≤ s.pool.pages

/-- The function takes nodes from the pool, returns none, and leaves the mark bits of the others alone. -/
class Kp {α : Type} (m : M Mgr α) : Prop where
  at' : ∀ s a s', m s = .ok a s' → PoolW s → PoolW s' ∧ (∀ q, Avail s' q → Avail s q) ∧ ∀ q, ¬ Avail s q → s'.marks q = s.marks q

variable {α β : Type} {cfg : Cfg}

theorem page_arith {n k off : Nat} (h1 : off ≤ k) (h2 : 1 ≤ n) :
    (∀ q, (n + 1 - 1) * k + 1 ≤ q → (n - 1) * k + off ≤ q) ∧ (n - 1) * k + off ≤ n * k := by
  obtain ⟨m, rfl⟩ : ∃ m, n = m + 1 := ⟨n - 1, by omega⟩
  rw [Nat.add_sub_cancel, Nat.add_sub_cancel, Nat.add_mul, Nat.one_mul]
  generalize m * k = x
  exact ⟨fun q h => by omega, by omega⟩

theorem reserve_avail {s : Mgr} (w : PoolW s) : PoolW { s with pool := s.pool.reserve.2 } ∧
    (∀ q, Avail { s with pool := s.pool.reserve.2 } q → Avail s q) ∧ Avail s s.pool.reserve.1 := by
  unfold PoolW Avail at *
  unfold Pool.reserve
  cases e : s.pool.avail with
  | cons r rest =>
    simp only [Pool.hw, List.mem_cons] at *
    exact ⟨w, fun q h => by rcases h with h | h <;> simp [h], by simp⟩
  | nil =>
    simp only [Pool.hw, List.not_mem_nil, false_or] at *
    split
    · simp only [e, List.not_mem_nil, false_or]
      exact ⟨⟨by omega, by omega⟩, fun q h => by omega, by omega⟩
    · simp only [e, List.not_mem_nil, false_or]
      obtain ⟨h1, h2⟩ := page_arith (k := 4096) w.1 w.2
      exact ⟨⟨by decide, by omega⟩, h1, h2⟩

theorem Kp.same {m : M Mgr α} (h : ∀ s a s', m s = .ok a s' → s'.pool = s.pool ∧ s'.marks = s.marks) : Kp m := by
  refine ⟨fun s a s' e w => ?_⟩
  obtain ⟨h1, h2⟩ := h s a s' e
  unfold PoolW Avail
  rw [h1, h2]
  exact ⟨w, fun _ h => h, fun _ _ => rfl⟩

theorem Kp.pure (a : α) : Kp (Pure.pure a : M Mgr α) := .same fun s b s' e => by cases e; exact ⟨rfl, rfl⟩
theorem Kp.ub : Kp (M.ub : M Mgr α) := ⟨fun s a s' e => by cases e⟩
theorem Kp.hang : Kp (M.hang : M Mgr α) := ⟨fun s a s' e => by cases e⟩
theorem Kp.throw : Kp (M.throw : M Mgr α) := ⟨fun s a s' e => by cases e⟩
theorem Kp.assert (b c : Bool) : Kp (M.assert b c : M Mgr Unit) := .same fun s a s' e => by
  unfold M.assert at e
  split at e
  · cases e; exact ⟨rfl, rfl⟩
  · cases e
theorem Kp.lift (x : Except Stop α) : Kp (M.lift x : M Mgr α) := .same fun s a s' e => by
  match x, e with
  | .ok _, e => cases e; exact ⟨rfl, rfl⟩
  | .error .ub, e => cases e
  | .error .hang, e => cases e
theorem Kp.get : Kp (M.get : M Mgr Mgr) := .same fun s a s' e => by cases e; exact ⟨rfl, rfl⟩
theorem Kp.modify0 {g : Mgr → Mgr} (h : ∀ s, (g s).pool = s.pool ∧ (g s).marks = s.marks) : Kp (M.modify g) := .same fun s a s' e => by
  cases e; exact h s
theorem Kp.bind {m : M Mgr α} {f : α → M Mgr β} (hm : Kp m) (hf : ∀ a, Kp (f a)) : Kp (m >>= f) := by
  refine ⟨fun s b s' e w => ?_⟩
  obtain ⟨a, s1, e1, e2⟩ := bind_ok_inv e
  obtain ⟨w1, a1, m1⟩ := hm.at' _ _ _ e1 w
  obtain ⟨w2, a2, m2⟩ := (hf a).at' _ _ _ e2 w1
  exact ⟨w2, fun q h => a1 q (a2 q h), fun q h => (m2 q fun h' => h (a1 q h')).trans (m1 q h)⟩

macro "kp" : tactic => `(tactic| repeat' first
  | infer_instance
  | with_reducible exact Kp.pure _
  | with_reducible exact Kp.ub
  | with_reducible exact Kp.hang
  | with_reducible exact Kp.throw
  | with_reducible exact Kp.assert _ _
  | with_reducible exact Kp.lift _
  | with_reducible exact Kp.get
  | ((with_reducible refine Kp.modify0 ?_); exact fun _ => ⟨rfl, rfl⟩)
  | (with_reducible refine Kp.bind ?_ (fun _ => ?_))
  | split
  | (dsimp only))

instance cacheInsert_kp (f g h r : Nat) : Kp (cacheInsert cfg f g h r) := by rw [cacheInsert_flat]; kp
instance addVariable_kp  : Kp (addVariable cfg) := by rw [addVariable_eq]; kp
instance release_kp (p : Nat) : Kp (release cfg p) := by rw [release_eq]; kp
instance acquire_kp (p : Nat) : Kp (acquire p) := by unfold acquire; kp
instance releaseNoAssert_kp (p : Nat) : Kp (releaseNoAssert p) := by unfold releaseNoAssert; kp
instance isBot_kp (p : Nat) : Kp (isBot cfg p) := by unfold isBot; kp
instance isTop_kp (p : Nat) : Kp (isTop cfg p) := by unfold isTop; kp
instance isTerm_kp (p : Nat) : Kp (isTerm cfg p) := by unfold isTerm; kp
instance lowOf_kp (p : Nat) : Kp (lowOf p) := by unfold lowOf; kp
instance highOf_kp (p : Nat) : Kp (highOf p) := by unfold highOf; kp
instance newPage_kp (n : Nat) : Kp (newPage cfg n) := by unfold newPage; kp
instance setTab_kp (v : Nat) (t : VarTable) : Kp (setTab v t) := by unfold setTab; kp
instance doubleCache_kp (v : Nat) : Kp (doubleCache cfg v) := by unfold doubleCache; kp
instance growIfNeeded_kp (v : Nat) : Kp (growIfNeeded cfg v) := by unfold growIfNeeded; kp
instance insertNode_kp (v l h : Nat) : Kp (insertNode cfg v l h) := by
  refine ⟨fun s a s' e w => ?_⟩
  unfold insertNode at e
  obtain ⟨_, s1, e1, e⟩ := bind_ok_inv e
  obtain ⟨w1, a1, m1⟩ := (growIfNeeded_kp (cfg := cfg) v).at' _ _ _ e1 w
  obtain ⟨p, s2, e2, e⟩ := bind_ok_inv e
  obtain ⟨_, s3, e3, e⟩ := bind_ok_inv e
  have e2' : p = s1.pool.reserve.1 ∧ s2 = { s1 with pool := s1.pool.reserve.2 } := by
    unfold reserveNode at e2
    simp only [Res.ok.injEq] at e2
    exact ⟨e2.1.symm, e2.2.symm⟩
  obtain ⟨hp, hs2⟩ := e2'
  obtain ⟨w2, a2, ap⟩ := reserve_avail w1
  have h3 : s3.pool = s2.pool ∧ s3.marks = upd s2.marks p false := by
    unfold initNewNode at e3
    obtain ⟨_, s2', e4, e5⟩ := bind_ok_inv e3
    have : s2' = s2 := by
      unfold M.assert at e4
      split at e4
      · cases e4; rfl
      · cases e4
    subst this
    have e5 : Res.ok () _ = Res.ok _ s3 := e5
    cases e5
    exact ⟨rfl, rfl⟩
  have hrest : Kp (do
      let s2 ← M.get
      let t := s2.tabs v
      M.assert cfg.ndebug (0 < t.free)
      let k ← M.lift (nextFreeSlot t (hashCode s2.cells (s2.cells p).lo (s2.cells p).hi))
      setTab v { t with free := sub64 t.free 1, slots := upd t.slots k (some p) }
      pure p : M Mgr Nat) := by kp
  have w3 : PoolW s3 := by
    unfold PoolW; rw [h3.1, hs2]; exact w2
  obtain ⟨w4, a4, m4⟩ := hrest.at' _ _ _ e w3
  have av3 : ∀ q, Avail s3 q → Avail s1 q := by
    intro q hq
    unfold Avail at hq
    rw [h3.1, hs2] at hq
    exact a2 q hq
  refine ⟨w4, fun q hq => a1 q (av3 q (a4 q hq)), ?_⟩
  intro q hq
  have hq1 : ¬ Avail s1 q := fun h => hq (a1 q h)
  have hq3 : ¬ Avail s3 q := fun h => hq1 (av3 q h)
  rw [m4 q hq3, h3.2]
  have hqp : q ≠ p := by
    rintro rfl
    rw [hp] at hq1
    exact hq1 ap
  rw [upd_ne _ _ hqp, hs2]
  exact m1 q hq

instance uniqueFindAux_kp (v l h n : Nat) : Kp (uniqueFindAux cfg v l h n) := by
  induction n with
  | zero => exact Kp.hang
  | succ n ih => unfold uniqueFindAux; kp
instance uniqueFind_kp (v l h : Nat) : Kp (uniqueFind cfg v l h) := by unfold uniqueFind; kp
instance cacheLookup_kp (f g h : Nat) : Kp (cacheLookup cfg f g h) := by unfold cacheLookup; kp
instance varOf_kp (p : Nat) : Kp (varOf p) := by unfold varOf; kp
instance lowIf_kp (c : Bool) (p : Nat) : Kp (lowIf c p) := by unfold lowIf; kp
instance highIf_kp (c : Bool) (p : Nat) : Kp (highIf c p) := by unfold highIf; kp
instance meld_kp (tag : Nat) (pick : Nat → Nat → Nat) (rec : Nat → Nat → M Mgr Nat) [∀ f g, Kp (rec f g)] (f g : Nat) :
    Kp (meld cfg tag pick rec f g) := by unfold meld; kp
instance andRec_kp (n f g : Nat) : Kp (andRec cfg n f g) := by
  induction n generalizing f g with
  | zero => exact Kp.hang
  | succ n ih => unfold andRec; kp
instance orRec_kp (n f g : Nat) : Kp (orRec cfg n f g) := by
  induction n generalizing f g with
  | zero => exact Kp.hang
  | succ n ih => unfold orRec; kp
instance args2_kp (m1 m2 : M Mgr Nat) [Kp m1] [Kp m2] : Kp (args2 cfg m1 m2) := by unfold args2; kp
instance args3_kp (m1 m2 m3 : M Mgr Nat) [Kp m1] [Kp m2] [Kp m3] : Kp (args3 cfg m1 m2 m3) := by unfold args3; kp
instance negateRec_kp (n p : Nat) : Kp (negateRec cfg n p) := by
  induction n generalizing p with
  | zero => exact Kp.hang
  | succ n ih =>
    have h1 : Kp (do let l ← lowOf p; negateRec cfg n l) := by kp
    have h2 : Kp (do let h ← highOf p; negateRec cfg n h) := by kp
    unfold negateRec; kp
instance negateOp_kp (p : Nat) : Kp (negateOp cfg p) := by unfold negateOp; kp
instance andOp_kp (f g : Nat) : Kp (andOp cfg f g) := by unfold andOp; kp
instance orOp_kp (f g : Nat) : Kp (orOp cfg f g) := by unfold orOp; kp
instance xorRec_kp (n f g : Nat) : Kp (xorRec cfg n f g) := by
  induction n generalizing f g with
  | zero => exact Kp.hang
  | succ n ih => unfold xorRec; kp
instance xorOp_kp (f g : Nat) : Kp (xorOp cfg f g) := by unfold xorOp; kp
instance varOrBack_kp (p : Nat) : Kp (varOrBack cfg p) := by unfold varOrBack; kp
instance iteRec_kp (n f g h : Nat) : Kp (iteRec cfg n f g h) := by
  induction n generalizing f g h with
  | zero => exact Kp.hang
  | succ n ih => unfold iteRec; kp
instance iteOp_kp (f g h : Nat) : Kp (iteOp cfg f g h) := by unfold iteOp; kp
instance addVariables_kp (n : Nat) : Kp (addVariables cfg n) := by
  induction n with
  | zero => exact Kp.pure _
  | succ n ih => unfold addVariables; kp
instance ensureVar_kp (v : Nat) : Kp (ensureVar cfg v) := by unfold ensureVar; kp
instance projection_kp (v : Nat) : Kp (projection cfg v) := by unfold projection; kp
instance negProjection_kp (v : Nat) : Kp (negProjection cfg v) := by unfold negProjection; kp
instance mgrUniqueFind_kp (v l h : Nat) : Kp (mgrUniqueFind cfg v l h) := by unfold mgrUniqueFind; kp
instance mapM'_kp {α : Type} (f : α → M Mgr Nat) [∀ a, Kp (f a)] (l : List α) : Kp (mapM' f l) := by
  induction l with
  | nil => exact Kp.pure _
  | cons a l ih => unfold mapM'; kp
instance rangeRec_kp (op : Nat → Nat → M Mgr Nat) [∀ a b, Kp (op a b)] (n : Nat) (l : List Nat) : Kp (rangeRec cfg op n l) := by
  induction n generalizing l with
  | zero => exact Kp.hang
  | succ n ih => unfold rangeRec; kp
instance variadic_kp (op : Nat → Nat → M Mgr Nat) [∀ a b, Kp (op a b)] (l : List Nat) : Kp (variadic op l) := by
  induction l with
  | nil => exact Kp.hang
  | cons a l ih =>
    cases l with
    | nil => exact Kp.hang
    | cons b l => cases l <;> (unfold variadic; kp)
instance andRange_kp (l : List Nat) : Kp (andRange cfg l) := by unfold andRange; kp
instance orRange_kp (l : List Nat) : Kp (orRange cfg l) := by unfold orRange; kp
instance xorRange_kp (l : List Nat) : Kp (xorRange cfg l) := by unfold xorRange; kp
instance allFalseRec_kp (n : Nat) (l : List Nat) : Kp (allFalseRec cfg n l) := by
  induction n generalizing l with
  | zero => exact Kp.hang
  | succ n ih => unfold allFalseRec; kp
instance allFalse_kp (l : List Nat) : Kp (allFalse cfg l) := by unfold allFalse; kp
instance orNeg_kp (a b : Nat) : Kp (orNeg cfg a b) := by unfold orNeg; kp
instance atMostOneRec_kp (n : Nat) (l : List Nat) : Kp (atMostOneRec cfg n l) := by
  induction n generalizing l with
  | zero => exact Kp.hang
  | succ n ih => unfold atMostOneRec; kp
instance atMostOne_kp (l : List Nat) : Kp (atMostOne cfg l) := by unfold atMostOne; kp
instance simplex_kp (l : List Nat) : Kp (simplex cfg l) := by unfold simplex; kp
instance atLeastOne_kp (l : List Nat) : Kp (atLeastOne cfg l) := by unfold atLeastOne; kp
theorem countRec_kp (leaf : List Nat → Nat → Option (M Mgr Nat)) (hl : ∀ l b m, leaf l b = some m → Kp m) (n : Nat) (l : List Nat) (b : Nat) :
    Kp (countRec cfg leaf n l b) := by
  induction n generalizing l b with
  | zero => exact Kp.hang
  | succ n ih =>
    unfold countRec
    refine Kp.bind (Kp.assert _ _) (fun _ => ?_)
    cases e : leaf l b with
    | some m => exact hl _ _ _ e
    | none => dsimp only; kp
instance atLeast_kp (l : List Nat) (b : Nat) : Kp (atLeast cfg l b) := by
  refine countRec_kp _ ?_ _ _ _
  intro l b m e
  unfold atLeastLeaf at e
  repeat' (split at e <;> try (cases e; kp))
instance atMost_kp (l : List Nat) (b : Nat) : Kp (atMost cfg l b) := by
  refine countRec_kp _ ?_ _ _ _
  intro l b m e
  unfold atMostLeaf at e
  repeat' (split at e <;> try (cases e; kp))
instance cardinality_kp (l : List Nat) (b : Nat) : Kp (cardinality cfg l b) := by
  refine countRec_kp _ ?_ _ _ _
  intro l b m e
  unfold cardLeaf at e
  repeat' (split at e <;> try (cases e; kp))
instance exactlyOne_kp (n p : Nat) : Kp (exactlyOne cfg n p) := by
  induction n generalizing p with
  | zero => exact Kp.hang
  | succ n ih => unfold exactlyOne; kp
instance findMgr_kp (n p : Nat) : Kp (findMgr cfg n p) := by
  induction n generalizing p with
  | zero => exact Kp.hang
  | succ n ih => unfold findMgr; kp
instance exactlyOneSolution_kp (p : Nat) : Kp (exactlyOneSolution cfg p) := by unfold exactlyOneSolution; kp
instance findBddMgr_kp (p : Nat) : Kp (findBddMgr cfg p) := by unfold findBddMgr; kp
instance insOf_kp (c : Coll) (i : Nat) : Kp (insOf c i) := by
  refine .same fun s a s' e => ?_
  unfold insOf at e; split at e <;> cases e; exact ⟨rfl, rfl⟩
instance dlmOf_kp (c : Coll) (i : Nat) : Kp (dlmOf c i) := by
  refine .same fun s a s' e => ?_
  unfold dlmOf at e; split at e <;> cases e; exact ⟨rfl, rfl⟩
instance exportRef_kp (c : Coll) (d0 d1 : Nat) (h : List (Nat × Nat)) (i : Nat) : Kp (exportRef cfg c d0 d1 h i) := by unfold exportRef; kp
instance exportLoop_kp (c : Coll) (d0 d1 k : Nat) (h : List (Nat × Nat)) : Kp (exportLoop cfg c d0 d1 k h) := by
  induction k generalizing h with
  | zero => exact Kp.pure _
  | succ k ih => unfold exportLoop; kp
instance importLoop_kp (c : Coll) (d0 k : Nat) (h : List (Nat × Nat)) : Kp (importLoop cfg c d0 k h) := by
  induction k generalizing h with
  | zero => exact Kp.pure _
  | succ k ih => unfold importLoop; kp
instance exportBdd_kp (c : Coll) (nr : Nat) : Kp (exportBdd cfg c nr) := by unfold exportBdd; kp
instance mgrAddBdd_kp (c : Coll) (nr : Nat) : Kp (mgrAddBdd cfg c nr) := by unfold mgrAddBdd; kp


theorem Fn.run_kp (f : Fn) (hf : f.walks = false) (ps : List Nat) : Kp (f.run cfg ps) := by
  unfold Fn.run
  split <;> first | (cases hf; done) | kp

/-! ### garbage collection -/

/-- The function writes no mark bit. -/
class Mk {α : Type} (m : M Mgr α) : Prop where
  at' : ∀ s a s', m s = .ok a s' → s'.marks = s.marks

theorem Mk.pure (a : α) : Mk (Pure.pure a : M Mgr α) := ⟨fun s b s' e => by cases e; rfl⟩
theorem Mk.ub : Mk (M.ub : M Mgr α) := ⟨fun s a s' e => by cases e⟩
theorem Mk.hang : Mk (M.hang : M Mgr α) := ⟨fun s a s' e => by cases e⟩
theorem Mk.throw : Mk (M.throw : M Mgr α) := ⟨fun s a s' e => by cases e⟩
theorem Mk.assert (b c : Bool) : Mk (M.assert b c : M Mgr Unit) := ⟨fun s a s' e => by
  unfold M.assert at e
  split at e
  · cases e; rfl
  · cases e⟩
theorem Mk.lift (x : Except Stop α) : Mk (M.lift x : M Mgr α) := ⟨fun s a s' e => by
  match x, e with
  | .ok _, e => cases e; rfl
  | .error .ub, e => cases e
  | .error .hang, e => cases e⟩
theorem Mk.get : Mk (M.get : M Mgr Mgr) := ⟨fun s a s' e => by cases e; rfl⟩
theorem Mk.modify0 {g : Mgr → Mgr} (h : ∀ s, (g s).marks = s.marks) : Mk (M.modify g) := ⟨fun s a s' e => by cases e; exact h s⟩
theorem Mk.bind {m : M Mgr α} {f : α → M Mgr β} (hm : Mk m) (hf : ∀ a, Mk (f a)) : Mk (m >>= f) := by
  refine ⟨fun s b s' e => ?_⟩
  obtain ⟨a, s1, e1, e2⟩ := bind_ok_inv e
  rw [(hf a).at' _ _ _ e2, hm.at' _ _ _ e1]

macro "mk" : tactic => `(tactic| repeat' first
  | infer_instance
  | with_reducible exact Mk.pure _
  | with_reducible exact Mk.ub
  | with_reducible exact Mk.hang
  | with_reducible exact Mk.throw
  | with_reducible exact Mk.assert _ _
  | with_reducible exact Mk.lift _
  | with_reducible exact Mk.get
  | ((with_reducible refine Mk.modify0 ?_); exact fun _ => rfl)
  | (with_reducible refine Mk.bind ?_ (fun _ => ?_))
  | split
  | (dsimp only))

instance freeNode_mk (p : Nat) : Mk (freeNode cfg p) := by rw [freeNode_eq]; mk
instance newPage_mk (n : Nat) : Mk (newPage cfg n) := by unfold newPage; mk
instance setTab_mk (v : Nat) (t : VarTable) : Mk (setTab v t) := by unfold setTab; mk
instance rdInner_mk (v n j : Nat) : Mk (rdInner v n j) := by
  induction n generalizing j with
  | zero => exact Mk.hang
  | succ n ih => unfold rdInner storeSlot incFree; mk
instance rdOuter_mk (v n k : Nat) : Mk (rdOuter cfg v n k) := by
  induction n generalizing k with
  | zero => exact Mk.hang
  | succ n ih => unfold rdOuter storeSlot incFree; mk
instance shrinkTable_mk (v : Nat) : Mk (shrinkTable cfg v) := by unfold shrinkTable; mk
instance removeDeadNodes_mk (v : Nat) : Mk (removeDeadNodes cfg v) := by unfold removeDeadNodes; mk
instance purge_mk : Mk purge := by unfold purge; mk
instance gcVars_mk (n i : Nat) : Mk (gcVars cfg n i) := by
  induction n generalizing i with
  | zero => exact Mk.pure _
  | succ n ih => unfold gcVars; mk
instance collectGarbage_mk : Mk (collectGarbage cfg) := by unfold collectGarbage; mk

end LBDD
