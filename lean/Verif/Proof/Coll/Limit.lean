import Verif.Proof.Coll.Impl
/-! How the node limit influences a conjunction. -/
namespace LBDD

/-- A computation never shrinks the stack, grows it by at most `B` when it succeeds, and succeeds if `B` nodes fit. -/
def CGrow (B L : Nat) (f : M Coll (Option Nat)) : Prop :=
  ∀ c o c', f c = .ok o c' → c.stack.length ≤ c'.stack.length ∧ (o ≠ none → c'.stack.length ≤ c.stack.length + B) ∧
    (c.stack.length + B ≤ L → o ≠ none)

/-- A successful computation does not depend on the limit, as long as what it built fits. -/
def CAgree (L' : Nat) (f f' : M Coll (Option Nat)) : Prop :=
  ∀ c k c', f c = .ok (some k) c' → (c'.stack.length ≤ L' ∨ c'.stack.length = c.stack.length) → f' c = .ok (some k) c'

theorem CGrow.pure (B L k : Nat) : CGrow B L (pure (some k)) := by
  intro c o c' h
  cases h
  exact ⟨Nat.le_refl _, fun _ => by omega, fun _ h => by cases h⟩

theorem CAgree.refl (L' : Nat) (f : M Coll (Option Nat)) : CAgree L' f f := fun _ _ _ h _ => h

theorem andTail_grow {B L : Nat} {rec : List Nat → M Coll (Option Nat)} {key : List Nat} {es : List Instr} {v : Nat}
    (hr : ∀ b, CGrow B L (rec (cofC b v key es))) : CGrow (2 * B + 1) L (andTail L rec key es v) := by
  intro c o c' h
  unfold andTail at h
  obtain ⟨o1, c1, h1, h⟩ := bind_ok_inv h
  obtain ⟨g1, g2, g3⟩ := hr _ _ _ _ h1
  cases o1 with
  | none =>
    cases h
    exact ⟨g1, fun h => absurd rfl h, fun hh => absurd rfl (g3 (by omega))⟩
  | some lo =>
    obtain ⟨o2, c2, h2, h⟩ := bind_ok_inv h
    obtain ⟨k1, k2, k3⟩ := hr _ _ _ _ h2
    have g2 := g2 (by simp)
    cases o2 with
    | none =>
      cases h
      exact ⟨by omega, fun h => absurd rfl h, fun hh => absurd rfl (k3 (by omega))⟩
    | some hi =>
      have k2 := k2 (by simp)
      replace h : (if lo = hi then _ else _ : M Coll (Option Nat)) c2 = .ok o c' := h
      by_cases e : lo = hi
      · rw [if_pos e] at h; cases h
        exact ⟨by omega, fun _ => by omega, fun _ h => by cases h⟩
      · rw [if_neg e, M.get_bind_apply] at h
        cases hred : c2.red.lookup ⟨lo, hi, v⟩ with
        | some m =>
          rw [hred] at h; cases h
          exact ⟨by omega, fun _ => by omega, fun _ h => by cases h⟩
        | none =>
          rw [hred] at h
          replace h : (M.set _ >>= fun _ => if L < c2.stack.length + 1 then _ else _ : M Coll (Option Nat)) c2 = .ok o c' := h
          rw [M.bind_ok (show M.set { c2 with stack := c2.stack ++ [⟨lo, hi, v⟩] } c2 = .ok () _ from rfl)] at h
          by_cases hl : L < c2.stack.length + 1
          · rw [if_pos hl] at h; cases h
            exact ⟨by simp; omega, fun h => absurd rfl h, fun hh => by omega⟩
          · rw [if_neg hl] at h; cases h
            exact ⟨by simp; omega, fun _ => by simp; omega, fun _ h => by cases h⟩

theorem andTail_agree {B L L' : Nat} {rec rec' : List Nat → M Coll (Option Nat)} {key : List Nat} {es : List Instr} {v : Nat}
    (hg : ∀ b, CGrow B L (rec (cofC b v key es))) (hr : ∀ b, CAgree L' (rec (cofC b v key es)) (rec' (cofC b v key es))) :
    CAgree L' (andTail L rec key es v) (andTail L' rec' key es v) := by
  intro c k c' h hlen
  unfold andTail at h ⊢
  obtain ⟨o1, c1, h1, h⟩ := bind_ok_inv h
  have g1 := (hg _ _ _ _ h1).1
  cases o1 with
  | none => cases h
  | some lo =>
    obtain ⟨o2, c2, h2, h⟩ := bind_ok_inv h
    have g2 := (hg _ _ _ _ h2).1
    cases o2 with
    | none => cases h
    | some hi =>
      replace h : (if lo = hi then _ else _ : M Coll (Option Nat)) c2 = .ok (some k) c' := h
      have hb : c2.stack.length ≤ c'.stack.length := by
        by_cases e : lo = hi
        · rw [if_pos e] at h; cases h; exact Nat.le_refl _
        · rw [if_neg e, M.get_bind_apply] at h
          cases hred : c2.red.lookup ⟨lo, hi, v⟩ with
          | some m => rw [hred] at h; cases h; exact Nat.le_refl _
          | none =>
            rw [hred] at h
            replace h : (M.set _ >>= fun _ => if L < c2.stack.length + 1 then _ else _ : M Coll (Option Nat)) c2 = .ok (some k) c' := h
            rw [M.bind_ok (show M.set { c2 with stack := c2.stack ++ [⟨lo, hi, v⟩] } c2 = .ok () _ from rfl)] at h
            by_cases hl : L < c2.stack.length + 1
            · rw [if_pos hl] at h; cases h
            · rw [if_neg hl] at h; cases h; simp
      rw [M.bind_ok (hr _ _ _ _ h1 (by omega))]
      show ((rec' (cofC true v key es) >>= _) c1) = _
      rw [M.bind_ok (hr _ _ _ _ h2 (by omega))]
      show (if lo = hi then _ else _ : M Coll (Option Nat)) c2 = .ok (some k) c'
      by_cases e : lo = hi
      · rw [if_pos e] at h ⊢; exact h
      · rw [if_neg e, M.get_bind_apply] at h ⊢
        cases hred : c2.red.lookup ⟨lo, hi, v⟩ with
        | some m => rw [hred] at h; exact h
        | none =>
          rw [hred] at h
          replace h : (M.set _ >>= fun _ => if L < c2.stack.length + 1 then _ else _ : M Coll (Option Nat)) c2 = .ok (some k) c' := h
          show (M.set _ >>= fun _ => if L' < c2.stack.length + 1 then _ else _ : M Coll (Option Nat)) c2 = .ok (some k) c'
          rw [M.bind_ok (show M.set { c2 with stack := c2.stack ++ [⟨lo, hi, v⟩] } c2 = .ok () _ from rfl)] at h ⊢
          by_cases hl : L < c2.stack.length + 1
          · rw [if_pos hl] at h; cases h
          · rw [if_neg hl] at h
            have : ¬ L' < c2.stack.length + 1 := by
              cases h; simp at hlen; omega
            rw [if_neg this]; exact h

theorem insAt_state {c c' : Coll} {i : Nat} {e : Instr} (h : insAt i c = .ok e c') : c' = c := by
  unfold insAt at h
  split at h
  · cases h; rfl
  · cases h

theorem insAll_state {c c' : Coll} : ∀ {key : List Nat} {es : List Instr}, insAll key c = .ok es c' → c' = c
  | [], _, h => by cases h; rfl
  | k :: ks, es, h => by
    unfold insAll at h
    obtain ⟨e, c1, h1, h⟩ := bind_ok_inv h
    obtain ⟨l, c2, h2, h⟩ := bind_ok_inv h
    cases h
    have := insAt_state h1; subst this
    exact insAll_state h2

theorem andImplN_grow (L : Nat) : ∀ n key, CGrow (2 ^ n - 1) L (andImplN L n key)
  | 0, key => by intro c o c' h; cases h
  | n + 1, key => by
    intro c o c' h
    unfold andImplN at h
    rw [M.get_bind_apply] at h
    cases hg : c.gen.lookup key with
    | some m => rw [hg] at h; exact CGrow.pure _ _ m c o c' h
    | none =>
      rw [hg] at h
      replace h : (insAll key >>= fun es => _) c = _ := h
      obtain ⟨es, c1, h1, h2⟩ := bind_ok_inv h
      clear h
      have h := h2
      clear h2
      have : c1 = c := insAll_state h1
      subst this
      by_cases ht : es.all (fun e => e.isTop) = true
      · rw [if_pos ht] at h; exact CGrow.pure _ _ 1 c1 o c' h
      · rw [if_neg ht] at h
        by_cases hb : es.any (fun e => e.isBot) = true
        · rw [if_pos hb] at h; exact CGrow.pure _ _ 0 c1 o c' h
        · rw [if_neg hb] at h
          have := andTail_grow (fun _ => andImplN_grow L n _) c1 o c' h
          have h2 : 2 * (2 ^ n - 1) + 1 = 2 ^ (n + 1) - 1 := by
            have := Nat.one_le_two_pow (n := n)
            rw [Nat.pow_succ]; omega
          rwa [h2] at this

theorem two_pow_step (n : Nat) : 2 * (2 ^ n - 1) + 1 = 2 ^ (n + 1) - 1 := by
  have := Nat.one_le_two_pow (n := n)
  rw [Nat.pow_succ]; omega

theorem andImplN_agree (L L' : Nat) : ∀ n key, CAgree L' (andImplN L n key) (andImplN L' n key)
  | 0, key => CAgree.refl _ _
  | n + 1, key => by
    intro c k c' h hlen
    unfold andImplN at h ⊢
    rw [M.get_bind_apply] at h ⊢
    cases hg : c.gen.lookup key with
    | some m => rw [hg] at h; exact h
    | none =>
      rw [hg] at h
      replace h : (insAll key >>= fun es => _) c = _ := h
      obtain ⟨es, c1, h1, h2⟩ := bind_ok_inv h
      clear h
      have h := h2
      clear h2
      have : c1 = c := insAll_state h1
      subst this
      show ((insAll key >>= _) c1) = _
      rw [M.bind_ok h1]
      by_cases ht : es.all (fun e => e.isTop) = true
      · rw [if_pos ht] at h ⊢; exact h
      · rw [if_neg ht] at h ⊢
        by_cases hb : es.any (fun e => e.isBot) = true
        · rw [if_pos hb] at h ⊢; exact h
        · rw [if_neg hb] at h ⊢
          exact andTail_agree (fun _ => andImplN_grow L n _) (fun _ => andImplN_agree L L' n _) c1 k c' h hlen

/-- `andImpl2` either returns a sink or runs the common tail. -/
theorem andImpl2_cases (n f g : Nat) (c : Coll) (ef eg : Instr) (hg : c.gen.lookup [f, g] = none) (hef : c.ins[f]? = some ef) (heg : c.ins[g]? = some eg) :
    (∃ k, ∀ L, andImpl2 L (n + 1) [f, g] c = .ok (some k) c) ∨
    ∀ L, andImpl2 L (n + 1) [f, g] c = andTail L (andImpl2 L n) [f, g] [ef, eg] (min ef.index eg.index) c := by
  have step : ∀ L, andImpl2 L (n + 1) [f, g] c =
      ((if ef.isTerm && eg.isTerm then
        if ef.isTop && eg.isTop then pure (some 1) else pure (some 0)
      else if ef.isTerm && !eg.isTerm then
        if ef.isBot then pure (some 0)
        else if !ef.isTerm && eg.isTerm then
          if eg.isBot then pure (some 0)
          else andTail L (andImpl2 L n) [f, g] [ef, eg] (min ef.index eg.index)
        else andTail L (andImpl2 L n) [f, g] [ef, eg] (min ef.index eg.index)
      else andTail L (andImpl2 L n) [f, g] [ef, eg] (min ef.index eg.index)) : M Coll (Option Nat)) c := by
    intro L
    conv => lhs; unfold andImpl2
    rw [M.get_bind_apply, hg]
    show ((insAt f >>= _) c) = _
    rw [M.bind_ok (insAt_ok hef), M.bind_ok (insAt_ok heg)]
  simp only [step]
  cases ef.isTerm <;> cases eg.isTerm <;> cases ef.isTop <;> cases eg.isTop <;> cases ef.isBot <;>
    simp only [Bool.and_self, Bool.and_true, Bool.and_false, Bool.not_true, Bool.not_false, if_true,
          if_false, Bool.false_eq_true] <;>
    first
      | exact Or.inr fun _ => rfl
      | exact Or.inr fun _ => trivial
      | exact Or.inr trivial
      | exact Or.inl ⟨_, fun _ => rfl⟩

theorem andImpl2_ub {L n f g : Nat} {c : Coll} {o : Option Nat} {c' : Coll} (h : andImpl2 L (n + 1) [f, g] c = .ok o c')
    (hg : c.gen.lookup [f, g] = none) : ∃ ef eg, c.ins[f]? = some ef ∧ c.ins[g]? = some eg := by
  unfold andImpl2 at h
  rw [M.get_bind_apply, hg] at h
  replace h : (insAt f >>= fun ef => insAt g >>= fun eg => _) c = _ := h
  obtain ⟨ef, c1, h1, h'⟩ := bind_ok_inv h
  have := insAt_state h1; subst this
  obtain ⟨eg, c2, h2, _⟩ := bind_ok_inv h'
  have aux : ∀ {i : Nat} {e : Instr} {c'' : Coll}, insAt i c1 = .ok e c'' → c1.ins[i]? = some e := by
    intro i e c'' h
    unfold insAt at h
    split at h
    · rename_i heq; cases h; exact heq
    · cases h
  exact ⟨ef, eg, aux h1, aux h2⟩

theorem cof_two (b : Bool) (v f g : Nat) (ef eg : Instr) : ∃ f' g', cofC b v [f, g] [ef, eg] = [f', g'] := ⟨_, _, rfl⟩

theorem andImpl2_grow (L : Nat) : ∀ n f g, CGrow (2 ^ n - 1) L (andImpl2 L n [f, g])
  | 0, f, g => by intro c o c' h; cases h
  | n + 1, f, g => by
    intro c o c' h
    cases hg : c.gen.lookup [f, g] with
    | some m =>
      unfold andImpl2 at h
      rw [M.get_bind_apply, hg] at h; exact CGrow.pure _ _ m c o c' h
    | none =>
      obtain ⟨ef, eg, hef, heg⟩ := andImpl2_ub h hg
      rcases andImpl2_cases n f g c ef eg hg hef heg with ⟨k, hk⟩ | hk
      · rw [hk L] at h; exact CGrow.pure _ _ k c o c' h
      · rw [hk L] at h
        rw [← two_pow_step]
        exact andTail_grow (fun _ => andImpl2_grow L n _ _) c o c' h

theorem andImpl2_agree (L L' : Nat) : ∀ n f g, CAgree L' (andImpl2 L n [f, g]) (andImpl2 L' n [f, g])
  | 0, f, g => CAgree.refl _ _
  | n + 1, f, g => by
    intro c k c' h hlen
    cases hg : c.gen.lookup [f, g] with
    | some m =>
      unfold andImpl2 at h ⊢
      rw [M.get_bind_apply, hg] at h ⊢; exact h
    | none =>
      obtain ⟨ef, eg, hef, heg⟩ := andImpl2_ub h hg
      rcases andImpl2_cases n f g c ef eg hg hef heg with ⟨k, hk⟩ | hk
      · rw [hk L] at h; rw [hk L']; exact h
      · rw [hk L] at h; rw [hk L']
        exact andTail_agree (fun _ => andImpl2_grow L n _ _) (fun _ => andImpl2_agree L L' n _ _) c k c' h hlen

end LBDD
