import Verif.Spec.Limited
import Verif.Props.Query
/-! The limited conjunction: what its limit and its count do guarantee (C23). -/
namespace LBDD
variable {cfg : Cfg} {u : Use} {a : Api} {p f g : Nat} {F G : List Bool → Bool}

theorem Paths.size {c : Nat → Cell} {p k : Nat} (h : Paths c p k) : ∀ {t : Tree}, Repr c p t → k = t.size + 1 := by
  induction h with
  | sink h2 =>
    intro t ht
    rename_i p
    have : p = 0 ∨ p = 1 := by omega
    rcases this with rfl | rfl
    · cases Repr.bot_iff.1 ht; rfl
    · cases Repr.top_iff.1 ht; rfl
  | node h2 _ _ ih1 ih2 =>
    intro t ht
    obtain ⟨l, h, rfl, _, _, h3, h4⟩ := ht.inv h2
    rw [ih1 h3, ih2 h4]
    simp only [Tree.size]; omega

theorem Repr.paths {c : Nat → Cell} : ∀ {t : Tree} {p : Nat}, Repr c p t → Paths c p (t.size + 1)
  | .bot, p, h => .sink (by cases h; decide)
  | .top, p, h => .sink (by cases h; decide)
  | .node v l h, p, hp => by
    have p2 : 2 ≤ p := by cases hp; assumption
    obtain ⟨l', h', e, _, _, h3, h4⟩ := hp.inv p2
    cases e
    have := Paths.node p2 h3.paths h4.paths
    exact (by simp only [Tree.size]; omega : l.size + 1 + (h.size + 1) = (Tree.node (c p).index l h).size + 1) ▸ this

/-- The number of paths is defined for every handle. -/
theorem paths_exists (hR : Reachable cfg u a) (hp : a.Holds p) : ∃ k, Paths a.mgr.cells p k := by
  obtain ⟨t, ht⟩ := hR.good.any hp
  exact ⟨_, ht.paths⟩

/-- Operational: the count is at most the limit unless an operand is the true sink. -/
theorem andLimRec_le {limit : Nat} : ∀ (n f g r k : Nat) (s s' : Mgr), andLimRec cfg limit n f g s = .ok (some (r, k)) s' →
    f ≠ topId → g ≠ topId → k ≤ limit := by
  intro n
  induction n with
  | zero => intro f g r k s s' h; cases h
  | succ n ih =>
    intro f g r k s s' h ft gt
    unfold andLimRec at h
    split at h
    · obtain ⟨k', s1, _, h⟩ := bind_ok_inv h
      split at h
      · cases h
      · cases h; omega
    split at h
    · exact ih g f r k s s' h gt ft
    split at h
    · cases h; omega
    split at h
    · cases h; omega
    obtain ⟨o, s1, _, h⟩ := bind_ok_inv h
    cases o with
    | some m =>
      simp only at h
      obtain ⟨k', s2, _, h⟩ := bind_ok_inv h
      split at h
      · cases h; assumption
      · cases h
    | none =>
      simp only at h
      obtain ⟨fv, _, _, h⟩ := bind_ok_inv h
      obtain ⟨gv, _, _, h⟩ := bind_ok_inv h
      obtain ⟨f0, _, _, h⟩ := bind_ok_inv h
      obtain ⟨g0, _, _, h⟩ := bind_ok_inv h
      obtain ⟨o0, _, _, h⟩ := bind_ok_inv h
      cases o0 with
      | none => cases h
      | some rk =>
        obtain ⟨r0, k0⟩ := rk
        simp only at h
        split at h
        · cases h
        obtain ⟨f1, _, _, h⟩ := bind_ok_inv h
        obtain ⟨g1, _, _, h⟩ := bind_ok_inv h
        obtain ⟨o1, _, _, h⟩ := bind_ok_inv h
        cases o1 with
        | none => cases h
        | some rk1 =>
          obtain ⟨r1, k1⟩ := rk1
          simp only at h
          split at h
          · cases h
          obtain ⟨q, _, _, h⟩ := bind_ok_inv h
          obtain ⟨_, _, _, h⟩ := bind_ok_inv h
          cases h
          omega

/-- C23, the part about the count: a returned count does not exceed the limit, unless an operand is the constant true, when the other operand is returned
whatever the limit. Missing: that the count is the number of nodes (`C23_refuted`). -/
theorem C23_count_partial {limit r k : Nat} {s s' : Mgr} (e : andLimited cfg f g limit s = .ok (some (r, k)) s') :
    k ≤ limit ∨ f = topId ∨ g = topId := by
  by_cases h1 : f = topId
  · exact Or.inr (Or.inl h1)
  by_cases h2 : g = topId
  · exact Or.inr (Or.inr h2)
  unfold andLimited at e
  rw [M.get_bind_apply] at e
  exact Or.inl (andLimRec_le _ _ _ _ _ _ _ e h1 h2)

/-- C23, the part about null: in histories that respect the variable order null is only returned when the limit is less than the product of the numbers of
paths of the operands, and the count never exceeds that product. Missing: the same with the number of nodes of the conjunction instead
(`C23_refuted_null`). -/
theorem C23_wide_limit_partial (hR : Reachable cfg .ordered a) (hf : a.Holds f) (hg : a.Holds g) {m n : Nat} (hm : Paths a.mgr.cells f m)
    (hn : Paths a.mgr.cells g n) {limit : Nat} {o : Option (Nat × Nat)} {s' : Mgr} (e : andLimited cfg f g limit a.mgr = .ok o s') :
    (m * n ≤ limit → o ≠ none) ∧ ∀ r k, o = some (r, k) → k ≤ m * n := by
  obtain ⟨tf, rf⟩ := hR.good.any hf
  obtain ⟨tg, rg⟩ := hR.good.any hg
  have h := andLimited_okA (bad := True) (Or.inl trivial) hR.good rf rg limit
  unfold SpecA at h
  rw [e] at h
  have ho : Use.ordered.md.ordered := Use.ordered_iff.2 rfl
  have hb : andBound tf tg = m * n := by rw [hm.size rf, hn.size rg]; rfl
  obtain ⟨_, _, h⟩ := h
  cases o with
  | none =>
    have := h ho
    exact ⟨fun h1 => (by omega), fun r k h2 => (by cases h2)⟩
  | some rk =>
    refine ⟨fun _ h => (by cases h), fun r k h2 => ?_⟩
    cases h2
    have := h.2 ho
    omega

/-- C23 is exact for equal operands: the result is the operand with its number of nodes, or null if that number exceeds the limit. -/
theorem C23_same_partial (hR : Reachable cfg u a) (hp : a.Holds p) (hs : SinkOk cfg ∨ 2 ≤ p) (limit : Nat) :
    ∃ l, ListsOnce a.mgr p l ∧ andLimited cfg p p limit a.mgr = .ok (if l.length ≤ limit then some (p, l.length) else none) a.mgr := by
  obtain ⟨l, h, e⟩ := C24_nr_nodes hR hp hs
  refine ⟨l, h, ?_⟩
  unfold andLimited
  rw [M.get_bind_apply]
  obtain ⟨n, en⟩ : ∃ n, fuel2 a.mgr = n + 1 := ⟨fuel2 a.mgr - 1, by unfold fuel2; omega⟩
  rw [en]
  unfold andLimRec
  rw [if_pos rfl, M.bind_ok e]
  by_cases hl : l.length ≤ limit
  · rw [if_neg (by omega), if_pos hl]; rfl
  · rw [if_pos (by omega), if_neg hl]; rfl

/-- x0, x1, x2, ¬x2, x0 ∧ x1, f = (x0 ∧ x1) ∨ x2, g = (x0 ∧ x1) ∨ ¬x2. -/
def zeroOps : List Op :=
  [.call (.projection 0) [], .call (.projection 1) [], .call (.projection 2) [],
   .call .negate [2], .call .and [0, 1], .call .or [4, 2], .call .or [4, 3]]

def zeroState (nd : Bool) : Api := stateAfter (envOf nd) .ordered zeroOps

theorem zeroState_args (nd : Bool) : (zeroState nd).args [4, 5, 6] = some [6, 8, 10] := by cases nd <;> decide +kernel

theorem zeroState_reachable (nd : Bool) : Reachable (envOf nd) .ordered (zeroState nd) := stateAfter_reachable _ _ _

/-- The limit does not bound the result at all: with limit 0 the call returns a conjunction of 2 nodes, with the node count 0. -/
theorem C23_refuted_zero : ∀ nd : Bool, ∃ a f g r s', Reachable (envOf nd) .ordered a ∧ a.Holds f ∧ a.Holds g ∧
    andLimited (envOf nd) f g 0 a.mgr = .ok (some (r, 0)) s' ∧ cntOf (nrNodes (envOf nd) r s') = some 2 := by
  intro nd
  have h : (resOf (andLimited (envOf nd) 8 10 0 (zeroState nd).mgr) none (zeroState nd).mgr).1 = some (6, 0) := by cases nd <;> decide +kernel
  refine ⟨zeroState nd, 8, 10, 6, (resOf (andLimited (envOf nd) 8 10 0 (zeroState nd).mgr) none (zeroState nd).mgr).2, zeroState_reachable nd, ?_, ?_, ?_, ?_⟩
  · exact args_holds (zeroState_args nd) 8 (by simp)
  · exact args_holds (zeroState_args nd) 10 (by simp)
  · rw [← h]
    exact resOf_eq (by cases nd <;> decide +kernel)
  · cases nd <;> decide +kernel

/-- Computes `Paths`. -/
def pathsB (c : Nat → Cell) : Nat → Nat → Option Nat
  | 0, _ => none
  | n + 1, p => if p < 2 then some 1 else
    match pathsB c n (c p).lo, pathsB c n (c p).hi with
    | some k, some l => some (k + l)
    | _, _ => none

theorem pathsB_sound {c : Nat → Cell} : ∀ {n p k : Nat}, pathsB c n p = some k → Paths c p k
  | 0, _, _, h => by cases h
  | n + 1, p, k, h => by
    unfold pathsB at h
    split at h
    · cases h; exact .sink (by assumption)
    · split at h
      · rename_i h1 h2
        cases h
        exact .node (by omega) (pathsB_sound h1) (pathsB_sound h2)
      · cases h

/-- C23, concrete: f and g have 5 paths each, and with limit 25 the conjunction is returned. -/
theorem C23_concrete (nd : Bool) : Reachable (envOf nd) .ordered (zeroState nd) ∧ (zeroState nd).Holds 8 ∧ (zeroState nd).Holds 10 ∧
    Paths (zeroState nd).mgr.cells 8 5 ∧ Paths (zeroState nd).mgr.cells 10 5 ∧
    (limOf (andLimited (envOf nd) 8 10 (5 * 5) (zeroState nd).mgr)).isSome = true :=
  ⟨zeroState_reachable nd, args_holds (zeroState_args nd) 8 (by simp), args_holds (zeroState_args nd) 10 (by simp),
    pathsB_sound (n := 5) (by cases nd <;> decide +kernel), pathsB_sound (n := 5) (by cases nd <;> decide +kernel), by cases nd <;> decide +kernel⟩

/-- The manager after a call of `and_rec_limited(x0, x1, 1)`. -/
def limAgain (nd : Bool) : Mgr := (resOf (andLimited (envOf nd) 2 3 1 (twoVars nd).mgr) none (twoVars nd).mgr).2

/-- And it is not even stable: repeated at once, the call that succeeded gives null (the first call has put the conjunction into the memo cache, where its
nodes are counted). -/
theorem C23_refuted_repeat : ∀ nd : Bool, ∃ a f g r s' s'', Reachable (envOf nd) .ordered a ∧ a.Holds f ∧ a.Holds g ∧
    andLimited (envOf nd) f g 1 a.mgr = .ok (some (r, 1)) s' ∧ andLimited (envOf nd) f g 1 s' = .ok none s'' := by
  intro nd
  have h : (resOf (andLimited (envOf nd) 2 3 1 (twoVars nd).mgr) none (twoVars nd).mgr).1 = some (4, 1) := by cases nd <;> decide +kernel
  have h2 : (resOf (andLimited (envOf nd) 2 3 1 (limAgain nd)) (some (0, 0)) (limAgain nd)).1 = none := by
    cases nd <;> decide +kernel
  refine ⟨twoVars nd, 2, 3, 4, limAgain nd, (resOf (andLimited (envOf nd) 2 3 1 (limAgain nd)) (some (0, 0)) (limAgain nd)).2,
    stateAfter_reachable _ _ _, ?_, ?_, ?_, ?_⟩
  · unfold Api.Holds; cases nd <;> decide +kernel
  · unfold Api.Holds; cases nd <;> decide +kernel
  · rw [← h]
    exact resOf_eq (by cases nd <;> decide +kernel)
  · have e := resOf_eq (o := andLimited (envOf nd) 2 3 1 (limAgain nd)) (d := some (0, 0)) (s := limAgain nd) (by cases nd <;> decide +kernel)
    rw [h2] at e
    exact e

end LBDD
