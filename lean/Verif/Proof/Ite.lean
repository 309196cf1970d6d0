import Verif.Proof.Ops
/-! `ite_rec`. -/
namespace LBDD
section
variable {cfg : Cfg} {md : Md} {refs : Nat → Nat} {s : Mgr}

/-- Like `Spec`, but undefined behaviour is allowed if `bad` holds. -/
def SpecB (bad : Prop) (cfg : Cfg) (md : Md) (refs : Nat → Nat) {α : Type} (m : M Mgr α) (s : Mgr)
    (P : α → Mgr → Prop) : Prop :=
  match m s with
  | .ub => bad
  | .ok a s' => Ext s s' ∧ Inv cfg md refs s' ∧ P a s'
  | .throw s' => Thrown cfg md refs s s'
  | .assertFail => False
  | .hang => False

section
variable {bad : Prop} {α β : Type}
theorem SpecB_false {m : M Mgr α} {P : α → Mgr → Prop} : SpecB False cfg md refs m s P ↔ Spec cfg md refs m s P := by
  unfold SpecB Spec M.Sat
  cases m s <;> exact Iff.rfl

theorem Spec.toB {m : M Mgr α} {P : α → Mgr → Prop} (h : Spec cfg md refs m s P) : SpecB bad cfg md refs m s P := by
  unfold Spec M.Sat at h
  unfold SpecB
  split at h <;> simp_all

theorem SpecB.bind {m : M Mgr α} {f : α → M Mgr β} {P : α → Mgr → Prop} {R : β → Mgr → Prop}
    (h : SpecB bad cfg md refs m s P)
    (hf : ∀ a s', Ext s s' → Inv cfg md refs s' → P a s' → SpecB bad cfg md refs (f a) s' R) :
    SpecB bad cfg md refs (m >>= f) s R := by
  show SpecB bad cfg md refs (M.bind m f) s R
  unfold SpecB M.bind
  unfold SpecB at h
  cases hm : m s with
  | ok a s1 =>
    rw [hm] at h
    obtain ⟨h1, h2, h3⟩ := h
    have := hf a s1 h1 h2 h3
    unfold SpecB at this
    simp only
    cases hm2 : f a s1 with
    | ok b s2 => rw [hm2] at this; exact ⟨h1.trans this.1, this.2⟩
    | throw s2 => rw [hm2] at this; exact this.of_grow h1.grow
    | assertFail => rw [hm2] at this; exact this
    | hang => rw [hm2] at this; exact this
    | ub => rw [hm2] at this; exact this
  | throw s1 => rw [hm] at h; exact h
  | assertFail => rw [hm] at h; exact h
  | hang => rw [hm] at h; exact h
  | ub => rw [hm] at h; exact h

theorem SpecB.mono {m : M Mgr α} {P R : α → Mgr → Prop} (h : SpecB bad cfg md refs m s P)
    (hf : ∀ a s', Ext s s' → Inv cfg md refs s' → P a s' → R a s') : SpecB bad cfg md refs m s R := by
  unfold SpecB at *
  split <;> simp_all

theorem SpecB.pure {a : α} {P : α → Mgr → Prop} (hi : Inv cfg md refs s) (h : P a s) :
    SpecB bad cfg md refs (Pure.pure a) s P := ⟨.refl _, hi, h⟩

theorem SpecB.read_bind {m : M Mgr α} {a : α} {f : α → M Mgr β} {R : β → Mgr → Prop}
    (hm : m s = .ok a s) (h : SpecB bad cfg md refs (f a) s R) : SpecB bad cfg md refs (m >>= f) s R := by
  show SpecB bad cfg md refs (M.bind m f) s R
  unfold SpecB M.bind
  rw [hm]
  exact h

theorem SpecB.ub_bind {m : M Mgr α} {f : α → M Mgr β} {R : β → Mgr → Prop} (hb : bad)
    (hm : m s = .ub) : SpecB bad cfg md refs (m >>= f) s R := by
  show SpecB bad cfg md refs (M.bind m f) s R
  unfold SpecB M.bind
  rw [hm]
  exact hb
end

/-- What `ite_rec` needs of the relation stored under the tag of `or_rec`. -/
structure SemIte (md : Md) : Prop extends SemOr md where
  exact0 : ∀ b c, md.sem false b c → c = b
  exact1 : ∀ c, md.sem true false c → c = true
  ite : RelIte md.rel md.irel

/-- Postcondition of if-then-else. -/
def PostIte (R : Bool → Bool → Bool → Prop) (tf tg th : Tree) (s : Mgr) (r : Nat) (s' : Mgr) : Prop :=
  ∃ tr, Repr s'.cells r tr ∧ (∀ x, iteSem R (tf.eval x) (tg.eval x) (th.eval x) (tr.eval x)) ∧
    (∀ w, tr.Mem w → tf.Mem w ∨ tg.Mem w ∨ th.Mem w) ∧ New s s' r

/-- Moreover the decision trees relate by `I`. -/
def PostIteT (R : Bool → Bool → Bool → Prop) (I : Tree → Tree → Tree → Tree → Prop) (tf tg th : Tree) (s : Mgr) (r : Nat) (s' : Mgr) : Prop :=
  ∃ tr, Repr s'.cells r tr ∧ (∀ x, iteSem R (tf.eval x) (tg.eval x) (th.eval x) (tr.eval x)) ∧
    (∀ w, tr.Mem w → tf.Mem w ∨ tg.Mem w ∨ th.Mem w) ∧ I tf tg th tr ∧ New s s' r

theorem PostIteT.post {R : Bool → Bool → Bool → Prop} {I : Tree → Tree → Tree → Tree → Prop} {tf tg th : Tree} {s s' : Mgr} {r : Nat}
    (h : PostIteT R I tf tg th s r s') : PostIte R tf tg th s r s' := by
  obtain ⟨tr, h1, h2, h3, _, h5⟩ := h
  exact ⟨tr, h1, h2, h3, h5⟩

/-- The condition under which `ite_rec` never takes the arc of a sink: the last variable of the
manager does not occur in the condition, or occurs in neither branch. -/
def IteSafe (n : Nat) (tf tg th : Tree) : Prop :=
  (∀ w, tf.Mem w → w + 1 < n) ∨ (∀ w, tg.Mem w ∨ th.Mem w → w + 1 < n)

theorem varOrBack_ok (hi : Inv cfg md refs s) {p : Nat} {t : Tree} (h : Repr s.cells p t) (hn : 0 < s.nvars) :
    varOrBack cfg p s = .ok (if 2 ≤ p then (s.cells p).index else s.nvars - 1) s := by
  unfold varOrBack
  rw [M.bind_ok (isTop_ok hi h), M.bind_ok (isBot_ok hi h)]
  by_cases h2 : 2 ≤ p
  · have a : ¬ p = 1 := by omega
    have b : ¬ p = 0 := by omega
    simp only [a, b, decide_false, Bool.or_self, Bool.false_eq_true, if_false, h2, if_true]
    exact varOf_ok hi h h2
  · have : p = 0 ∨ p = 1 := by omega
    have hb : (decide (p = 1) || decide (p = 0)) = true := by rcases this with h | h <;> simp [h]
    simp only [hb, if_true, h2, if_false]
    rw [M.get_bind_apply, if_neg (by omega)]
    rfl

theorem cof_eval_gen {v : Nat} {c : Bool} {t : Tree} (hc : c = true → ∃ l h, t = .node v l h) (x : Assign) :
    (cof c (x v) t).eval x = t.eval x := by
  cases t with
  | bot => simp [cof]
  | top => simp [cof]
  | node v' l h =>
    refine cof_eval (fun hh => ?_) x
    obtain ⟨l', h', e⟩ := hc hh
    cases e; rfl

theorem iteRec_ok (hs : SemIte md) (bad : Prop) :
    ∀ (n f g h : Nat) (tf tg th : Tree) (s : Mgr), Inv cfg md refs s → Repr s.cells f tf → Repr s.cells g tg →
    Repr s.cells h th → bad ∨ IteSafe s.nvars tf tg th →
    0 < n → Fits md s.nvars (n - 1) [tf, tg, th] →
    SpecB bad cfg md refs (iteRec cfg n f g h) s (PostIteT md.sem md.irel tf tg th s) := by
  intro n
  induction n with
  | zero => intro f g h tf tg th s _ _ _ _ _ hn _; omega
  | succ n ih =>
    intro f g h tf tg th s hi hf hg hh hsafe _ hn
    rw [show n + 1 - 1 = n from rfl] at hn
    unfold iteRec
    refine SpecB.read_bind (isTop_ok hi hf) ?_
    by_cases f1 : f = 1
    · subst f1
      cases Repr.top_iff.1 hf
      exact SpecB.pure hi ⟨tg, hg, fun x => Or.inl (by simp [Tree.eval]), fun w hw => Or.inr (Or.inl hw), hs.ite.top _ _, .refl⟩
    rw [if_neg (by simpa using f1)]
    refine SpecB.read_bind (isBot_ok hi hf) ?_
    by_cases f0 : f = 0
    · subst f0
      cases Repr.bot_iff.1 hf
      exact SpecB.pure hi ⟨th, hh, fun x => Or.inl (by simp [Tree.eval]), fun w hw => Or.inr (Or.inr hw), hs.ite.bot _ _, .refl⟩
    rw [if_neg (by simpa using f0)]
    have f2 : 2 ≤ f := by omega
    obtain ⟨fl, fh, htf, fl1, _, _, _⟩ := hf.inv f2
    have tfeq : ∀ {p : Nat} {t : Tree}, Repr s.cells p t → (p = f ↔ t = tf) := by
      intro p t hp
      exact ⟨fun e => by subst e; exact hp.fn hf, fun e => hi.repr_inj (e ▸ hp) hf⟩
    have ttop : ∀ {p : Nat} {t : Tree}, Repr s.cells p t → (p = 1 ↔ t = .top) := by
      intro p t hp
      exact ⟨fun e => by subst e; exact Repr.top_iff.1 hp, fun e => by subst e; exact hi.repr_inj hp .top⟩
    have tbot : ∀ {p : Nat} {t : Tree}, Repr s.cells p t → (p = 0 ↔ t = .bot) := by
      intro p t hp
      exact ⟨fun e => by subst e; exact Repr.bot_iff.1 hp, fun e => by subst e; exact hi.repr_inj hp .bot⟩
    have c1 : (if g = f then (pure true : M Mgr Bool) else isTop cfg g) s = .ok (decide (g = f ∨ g = 1)) s := by
      split
      · rename_i e; simp [e]; rfl
      · rename_i e; rw [isTop_ok hi hg]; simp [e]
    refine SpecB.read_bind c1 ?_
    by_cases hc1 : g = f ∨ g = 1
    · rw [if_pos (by simpa using hc1)]
      refine ((orOp_okT hs.toSemOr hi hf hh).toB).mono ?_
      rintro r s' _ _ ⟨tr, h1, h2, h3, hrel, hnew⟩
      refine ⟨tr, h1, fun x => ?_, fun w hw => ?_, ?_, hnew⟩
      · have h2 := h2 x
        have hgt : tf.eval x = true → tg.eval x = true := by
          rcases hc1 with rfl | rfl
          · cases hf.fn hg; exact fun h => h
          · cases Repr.top_iff.1 hg; exact fun _ => rfl
        unfold iteSem
        cases ef : tf.eval x with
        | false => rw [ef] at h2; exact Or.inl (by rw [hs.exact0 _ _ h2]; simp)
        | true =>
          rw [hgt ef]
          cases eh : th.eval x with
          | false => rw [ef, eh] at h2; exact Or.inl (by rw [hs.exact1 _ h2]; simp)
          | true => rw [ef, eh] at h2; exact Or.inr ⟨rfl, rfl, rfl, h2⟩
      · rcases h3 w hw with h | h
        · exact Or.inl h
        · exact Or.inr (Or.inr h)
      · rw [tfeq hg, ttop hg] at hc1
        rw [htf] at hc1 hrel ⊢
        exact hs.ite.or _ _ _ _ _ _ hc1 hrel
    rw [if_neg (by simpa using hc1)]
    have c2 : (if h = f then (pure true : M Mgr Bool) else isBot cfg h) s = .ok (decide (h = f ∨ h = 0)) s := by
      split
      · rename_i e; simp [e]; rfl
      · rename_i e; rw [isBot_ok hi hh]; simp [e]
    refine SpecB.read_bind c2 ?_
    by_cases hc2 : h = f ∨ h = 0
    · rw [if_pos (by simpa using hc2)]
      refine ((andOp_okT hi hf hg).toB).mono ?_
      rintro r s' _ _ ⟨tr, h1, h2, h3, hrel, hnew⟩
      refine ⟨tr, h1, fun x => ?_, fun w hw => ?_, ?_, hnew⟩
      · left
        rw [h2 x]
        rcases hc2 with rfl | rfl
        · cases hf.fn hh; cases tf.eval x <;> simp
        · cases Repr.bot_iff.1 hh; simp only [Tree.eval]; cases tf.eval x <;> simp
      · rcases h3 w hw with h | h
        · exact Or.inl h
        · exact Or.inr (Or.inl h)
      · rw [tfeq hg, ttop hg] at hc1
        rw [tfeq hh, tbot hh] at hc2
        rw [htf] at hc1 hc2 hrel ⊢
        rw [hrel]
        exact hs.ite.and _ _ _ _ _ hc1 hc2
    rw [if_neg (by simpa using hc2)]
    by_cases hgh : g = h
    · subst hgh
      cases hg.fn hh
      rw [if_pos rfl]
      refine SpecB.pure hi ⟨tg, hg, fun x => Or.inl (by simp), fun w hw => Or.inr (Or.inl hw), ?_, .refl⟩
      rw [tfeq hg, ttop hg] at hc1
      rw [tfeq hg, tbot hg] at hc2
      rw [htf] at hc1 hc2 ⊢
      exact hs.ite.same _ _ _ _ hc1 hc2
    rw [if_neg hgh]
    have c3 : (do if ← isBot cfg g then isTop cfg h else (pure false : M Mgr Bool)) s =
        .ok (decide (g = 0 ∧ h = 1)) s := by
      rw [M.bind_ok (isBot_ok hi hg)]
      by_cases e : g = 0
      · simp only [e, decide_true, if_true, true_and]; exact isTop_ok hi hh
      · simp only [e, decide_false, if_false, false_and]; rfl
    refine SpecB.read_bind c3 ?_
    by_cases hc3 : g = 0 ∧ h = 1
    · rw [if_pos (by simpa using hc3)]
      refine ((xorTop_ok hi hf f2).toB).mono ?_
      rintro r s' _ _ ⟨h1, hnew⟩
      obtain ⟨rfl, rfl⟩ := hc3
      cases Repr.bot_iff.1 hg
      cases Repr.top_iff.1 hh
      refine ⟨_, h1, fun x => Or.inl ?_, fun w hw => Or.inl ((negTree_mem _ _).1 hw), ?_, hnew⟩
      case refine_2 => rw [htf]; exact hs.ite.neg _ _ _
      rw [negTree_eval]; simp only [Tree.eval]; cases tf.eval x <;> rfl
    rw [if_neg (by simpa using hc3)]
    obtain ⟨o, ho1, ho2⟩ := cacheLookup_ok hi f g (cfg.addr h)
    refine SpecB.read_bind ho1 ?_
    cases o with
    | some r =>
      simp only
      obtain ⟨f', g', tf', tg', tr, e1, e2, h1, h2, h3, h4⟩ := ho2 r rfl r rfl
      cases e1; cases e2
      cases hf.fn h1
      cases hg.fn h2
      have hb := cfg.addr_big h
      simp only at h4
      rcases h4 with h4 | h4 | ⟨q, tq, hq, hrq, h5, h6, h7⟩
      · exact absurd h4.1 (by unfold andTag; omega)
      · exact absurd h4.1 (by unfold orTag; omega)
      · have := cfg.addr_inj _ _ hq
        subst this
        cases hrq.fn hh
        exact SpecB.pure hi ⟨tr, h3, h5, h6, h7, .refl⟩
    | none =>
      simp only
      have hfv := (hi.node f f2 fl1).1
      refine SpecB.read_bind (varOf_ok hi hf f2) ?_
      refine SpecB.read_bind (varOrBack_ok hi hg (by omega)) ?_
      refine SpecB.read_bind (varOrBack_ok hi hh (by omega)) ?_
      have hleaf : iteLeaf tf tg th = none := by
        rw [tfeq hg, ttop hg] at hc1
        rw [tfeq hh, tbot hh] at hc2
        rw [tbot hg, ttop hh] at hc3
        unfold iteLeaf
        rw [if_neg (fun e => f1 ((ttop hf).2 e)), if_neg (fun e => f0 ((tbot hf).2 e)), if_neg hc1, if_neg hc2,
          if_neg (fun e : tg = th => hgh (hi.repr_inj (e ▸ hg) hh)), if_neg hc3]
      -- the three variables
      generalize hvf : (s.cells f).index = vf at *
      generalize hvg : (if 2 ≤ g then (s.cells g).index else s.nvars - 1) = vg at *
      generalize hvh : (if 2 ≤ h then (s.cells h).index else s.nvars - 1) = vh at *
      generalize hv : min (min vf vg) vh = v at *
      have hvlef : v ≤ vf := by omega
      have hvleg : v ≤ vg := by omega
      have hvleh : v ≤ vh := by omega
      have hvn : v < s.nvars := by omega
      -- a chosen operand is never a sink
      have inner : ∀ {p vp : Nat} {t : Tree}, Repr s.cells p t →
          (if 2 ≤ p then (s.cells p).index else s.nvars - 1) = vp →
          ((2 ≤ p → ∃ l h, t = .node vp l h)) := by
        intro p vp t hp hvp h2
        obtain ⟨l, h, e, _⟩ := hp.inv h2
        rw [if_pos h2] at hvp
        exact ⟨l, h, by rw [e, hvp]⟩
      have hmemv : ∀ {p vp : Nat} {t : Tree}, Repr s.cells p t →
          (if 2 ≤ p then (s.cells p).index else s.nvars - 1) = vp → 2 ≤ p → t.Mem vp := by
        intro p vp t hp hvp h2
        obtain ⟨l, h, e⟩ := inner hp hvp h2
        rw [e]; exact Or.inl rfl
      have hsink : IteSafe s.nvars tf tg th → vg = v ∨ vh = v → ¬ (vg = v → 2 ≤ g) ∨ ¬ (vh = v → 2 ≤ h) → False := by
        intro hsafe _ hbad
        -- then v is the last variable
        have hlast : v = s.nvars - 1 := by
          rcases hbad with hb | hb
          · rw [Classical.not_imp] at hb
            rw [if_neg hb.2] at hvg; omega
          · rw [Classical.not_imp] at hb
            rw [if_neg hb.2] at hvh; omega
        rcases hsafe with hs | hs
        · have : tf.Mem vf := by rw [htf]; exact Or.inl rfl
          have := hs vf this
          omega
        · have hg2 : ¬ 2 ≤ g := by
            intro h2
            have hm := hs _ (Or.inl (hmemv hg hvg h2))
            have := hi.mem_lt hg (hmemv hg hvg h2)
            omega
          have hh2 : ¬ 2 ≤ h := by
            intro h2
            have hm := hs _ (Or.inr (hmemv hh hvh h2))
            have := hi.mem_lt hh (hmemv hh hvh h2)
            omega
          omega
      have sinkLow : ∀ {p : Nat} {t : Tree}, Repr s.cells p t → ¬ 2 ≤ p → lowIf true p s = .ub := by
        intro p t hp h2
        have : p = 0 ∨ p = 1 := by omega
        have hidx : topsinkIndex ≤ (s.cells p).index := by
          rcases this with rfl | rfl
          · rw [hi.bot.1]; decide
          · rw [hi.top.1]; exact Nat.le_refl _
        show lowOf p s = .ub
        unfold lowOf
        rw [M.get_bind_apply, if_pos (by simp [hidx])]
        rfl
      obtain ⟨p0, e1, hp0⟩ := lowIf_ok (c := vf == v) hf (fun _ => f2)
      refine SpecB.read_bind e1 ?_
      by_cases g2 : (vg == v) = true → 2 ≤ g
      case neg =>
        rw [Classical.not_imp] at g2
        refine SpecB.ub_bind ?_ (by rw [g2.1]; exact sinkLow hg g2.2)
        rcases hsafe with h | h
        · exact h
        · have e : vg = v := by simpa using g2.1
          exact (hsink h (Or.inl e) (Or.inl (fun h => g2.2 (h e)))).elim
      obtain ⟨q0, e2, hq0⟩ := lowIf_ok (c := vg == v) hg g2
      refine SpecB.read_bind e2 ?_
      by_cases h2' : (vh == v) = true → 2 ≤ h
      case neg =>
        rw [Classical.not_imp] at h2'
        refine SpecB.ub_bind ?_ (by rw [h2'.1]; exact sinkLow hh h2'.2)
        rcases hsafe with h | h
        · exact h
        · have e : vh = v := by simpa using h2'.1
          exact (hsink h (Or.inr e) (Or.inr (fun h => h2'.2 (h e)))).elim
      obtain ⟨w0, e3, hw0⟩ := lowIf_ok (c := vh == v) hh h2'
      refine SpecB.read_bind e3 ?_
      have nodef : (vf == v) = true → ∃ l h, tf = .node v l h := by
        intro e
        have e : vf = v := by simpa using e
        exact ⟨fl, fh, by rw [htf, e]⟩
      have nodeg : (vg == v) = true → ∃ l h, tg = .node v l h := by
        intro e
        have e' : vg = v := by simpa using e
        obtain ⟨l, h, e2⟩ := inner hg hvg (g2 e)
        exact ⟨l, h, by rw [e2, e']⟩
      have nodeh : (vh == v) = true → ∃ l h, th = .node v l h := by
        intro e
        have e' : vh = v := by simpa using e
        obtain ⟨l, h, e2⟩ := inner hh hvh (h2' e)
        exact ⟨l, h, by rw [e2, e']⟩
      have hone : (vf == v) = true ∨ (vg == v) = true ∨ (vh == v) = true := by
        have : vf = v ∨ vg = v ∨ vh = v := by omega
        simpa using this
      have hlt : ∀ b, (cof (vf == v) b tf).height + (cof (vg == v) b tg).height + (cof (vh == v) b th).height < tf.height + tg.height + th.height := by
        intro b
        have a1 := cof_height_le (vf == v) b tf
        have a2 := cof_height_le (vg == v) b tg
        have a3 := cof_height_le (vh == v) b th
        rcases hone with e | e | e
        · obtain ⟨l, h, e2⟩ := nodef e
          rw [e] at a1 ⊢
          have := cof_height_lt (b := b) (v := v) (l := l) (h := h)
          rw [← e2] at this; omega
        · obtain ⟨l, h, e2⟩ := nodeg e
          rw [e] at a2 ⊢
          have := cof_height_lt (b := b) (v := v) (l := l) (h := h)
          rw [← e2] at this; omega
        · obtain ⟨l, h, e2⟩ := nodeh e
          rw [e] at a3 ⊢
          have := cof_height_lt (b := b) (v := v) (l := l) (h := h)
          rw [← e2] at this; omega
      have hsafe' : ∀ b, bad ∨ IteSafe s.nvars (cof (vf == v) b tf) (cof (vg == v) b tg) (cof (vh == v) b th) := by
        intro b
        rcases hsafe with hb | hs | hs
        · exact Or.inl hb
        · exact Or.inr (Or.inl (fun w hw => hs w (cof_mem hw)))
        · refine Or.inr (Or.inr (fun w hw => hs w ?_))
          rcases hw with hw | hw
          · exact Or.inl (cof_mem hw)
          · exact Or.inr (cof_mem hw)
      -- variables below the split
      have below : ∀ (c b : Bool) (p vp : Nat) (t : Tree), Repr s.cells p t →
          (if 2 ≤ p then (s.cells p).index else s.nvars - 1) = vp → v ≤ vp → (c = true ↔ v = vp) →
          md.ordered → ∀ w, (cof c b t).Mem w → v < w := by
        intro c b p vp t hp hvp hle hc hmd w hw
        by_cases h2 : 2 ≤ p
        · obtain ⟨l, h, e⟩ := inner hp hvp h2
          have ho := hi.ord hmd _ _ hp
          rw [e] at ho hw
          exact cof_lt ho hc hle hw
        · have : p = 0 ∨ p = 1 := by omega
          rcases this with rfl | rfl
          · cases Repr.bot_iff.1 hp; simp [cof, Tree.Mem] at hw
          · cases Repr.top_iff.1 hp; simp [cof, Tree.Mem] at hw
      have hff : (if 2 ≤ f then (s.cells f).index else s.nvars - 1) = vf := by rw [if_pos f2, hvf]
      have hbeq : ∀ a : Nat, ((a == v) = true ↔ v = a) := by
        intro a; simp; exact ⟨fun h => h.symm, fun h => h.symm⟩
      have hfit : ∀ b, 0 < n ∧ Fits md s.nvars (n - 1) [cof (vf == v) b tf, cof (vg == v) b tg, cof (vh == v) b th] := by
        intro b
        refine hn.split (v := v) (by have := hlt b; simp; omega) hvn ?_ ?_
        · rcases hone with e | e | e
          · obtain ⟨l, h, e2⟩ := nodef e; exact ⟨tf, by simp, by rw [e2]; exact Or.inl rfl⟩
          · obtain ⟨l, h, e2⟩ := nodeg e; exact ⟨tg, by simp, by rw [e2]; exact Or.inl rfl⟩
          · obtain ⟨l, h, e2⟩ := nodeh e; exact ⟨th, by simp, by rw [e2]; exact Or.inl rfl⟩
        · intro hmd t ht w hw
          simp only [List.mem_cons, List.not_mem_nil, or_false] at ht
          rcases ht with rfl | rfl | rfl
          · exact below _ _ _ _ _ hf hff hvlef (hbeq vf) hmd w hw
          · exact below _ _ _ _ _ hg hvg hvleg (hbeq vg) hmd w hw
          · exact below _ _ _ _ _ hh hvh hvleh (hbeq vh) hmd w hw
      refine SpecB.bind (ih p0 q0 w0 _ _ _ s hi hp0 hq0 hw0 (hsafe' false) (hfit false).1 (hfit false).2) ?_
      rintro r0 s1 x1 hi1 ⟨t0, hr0, ht0, hv0, k0, n0⟩
      obtain ⟨p1, e4, hp1⟩ := highIf_ok (c := vf == v) (hf.ext x1.cells) (fun _ => f2)
      refine SpecB.read_bind e4 ?_
      obtain ⟨q1, e5, hq1⟩ := highIf_ok (c := vg == v) (hg.ext x1.cells) g2
      refine SpecB.read_bind e5 ?_
      obtain ⟨w1, e6, hw1⟩ := highIf_ok (c := vh == v) (hh.ext x1.cells) h2'
      refine SpecB.read_bind e6 ?_
      refine SpecB.bind (ih p1 q1 w1 _ _ _ s1 hi1 hp1 hq1 hw1 (by rw [x1.nvars]; exact hsafe' true) (hfit true).1 (by rw [x1.nvars]; exact (hfit true).2)) ?_
      rintro r1 s2 x2 hi2 ⟨t1, hr1, ht1, hv1, k1, n1⟩
      have hord : md.ordered → ∀ w, t0.Mem w ∨ t1.Mem w → v < w := by
        intro hmd w hw
        rcases hw with hw | hw
        · rcases hv0 w hw with h | h | h
          · exact below _ _ _ _ _ hf hff hvlef (hbeq vf) hmd w h
          · exact below _ _ _ _ _ hg hvg hvleg (hbeq vg) hmd w h
          · exact below _ _ _ _ _ hh hvh hvleh (hbeq vh) hmd w h
        · rcases hv1 w hw with h | h | h
          · exact below _ _ _ _ _ hf hff hvlef (hbeq vf) hmd w h
          · exact below _ _ _ _ _ hg hvg hvleg (hbeq vg) hmd w h
          · exact below _ _ _ _ _ hh hvh hvleh (hbeq vh) hmd w h
      refine SpecB.bind ((uniqueFind_spec hi2 (by rw [x2.nvars, x1.nvars]; exact hvn) (hr0.ext x2.cells) hr1 hord).toB) ?_
      rintro r s3 x3 hi3 ⟨hr, n3⟩
      have heval : ∀ x, iteSem md.sem (tf.eval x) (tg.eval x) (th.eval x) ((mkTree v t0 t1).eval x) := by
        intro x
        rw [mkTree_eval, ← cof_eval_gen nodef x, ← cof_eval_gen nodeg x, ← cof_eval_gen nodeh x]
        cases hx : x v
        · simpa using ht0 x
        · simpa using ht1 x
      have hvars : ∀ w, (mkTree v t0 t1).Mem w → tf.Mem w ∨ tg.Mem w ∨ th.Mem w := by
        intro w hw
        rcases mkTree_mem hw with rfl | hw | hw
        · rcases hone with e | e | e
          · obtain ⟨l, h, e2⟩ := nodef e; left; rw [e2]; exact Or.inl rfl
          · obtain ⟨l, h, e2⟩ := nodeg e; right; left; rw [e2]; exact Or.inl rfl
          · obtain ⟨l, h, e2⟩ := nodeh e; right; right; rw [e2]; exact Or.inl rfl
        · rcases hv0 w hw with h | h | h
          · exact Or.inl (cof_mem h)
          · exact Or.inr (Or.inl (cof_mem h))
          · exact Or.inr (Or.inr (cof_mem h))
        · rcases hv1 w hw with h | h | h
          · exact Or.inl (cof_mem h)
          · exact Or.inr (Or.inl (cof_mem h))
          · exact Or.inr (Or.inr (cof_mem h))
      have x123 := (x1.trans x2).trans x3
      have hroot : ∀ {p vp : Nat} {t : Tree}, Repr s.cells p t → (if 2 ≤ p then (s.cells p).index else s.nvars - 1) = vp →
          rootOr vf t = vp ∨ (rootOr vf t = vf ∧ vf ≤ vp ∧ ∀ c b, cof c b t = t) := by
        intro p vp t hp hvp
        by_cases h2 : 2 ≤ p
        · obtain ⟨l, h, e⟩ := inner hp hvp h2
          rw [e]; exact Or.inl rfl
        · rw [if_neg h2] at hvp
          refine Or.inr ?_
          cases hp with
          | bot => exact ⟨rfl, by omega, fun _ _ => rfl⟩
          | top => exact ⟨rfl, by omega, fun _ _ => rfl⟩
          | node h => exact absurd h h2
      have hV : iteVar vf tg th = v := by
        unfold iteVar
        rcases hroot hg hvg with h | ⟨h, h', _⟩ <;> rcases hroot hh hvh with k | ⟨k, k', _⟩ <;> omega
      have hcof : ∀ {p vp : Nat} {t : Tree} (b : Bool), Repr s.cells p t → (if 2 ≤ p then (s.cells p).index else s.nvars - 1) = vp →
          cof (rootOr vf t == v) b t = cof (vp == v) b t := by
        intro p vp t b hp hvp
        rcases hroot hp hvp with h | ⟨_, _, h⟩
        · rw [h]
        · rw [h, h]
      have hrel : md.irel tf tg th (mkTree v t0 t1) := by
        rw [← hcof false hg hvg, ← hcof false hh hvh, ← hV] at k0
        rw [← hcof true hg hvg, ← hcof true hh hvh, ← hV] at k1
        rw [← hV]
        rw [htf] at k0 k1 hleaf ⊢
        exact hs.ite.step vf fl fh tg th t0 t1 hleaf k0 k1
      have hent : EntryOk cfg md s3.cells ⟨some f, some g, cfg.addr h, some r⟩ := by
        intro r' hr'
        cases hr'
        exact ⟨f, g, tf, tg, _, rfl, rfl, hf.ext x123.cells, hg.ext x123.cells, hr,
          Or.inr (Or.inr ⟨h, th, rfl, hh.ext x123.cells, heval, hvars, hrel⟩)⟩
      refine SpecB.bind ((cacheInsert_ok hi3 hent).toB) ?_
      intro _ s4 x4 hi4 e4
      refine SpecB.pure hi4 ⟨_, hr.ext x4.cells, heval, hvars, hrel, ?_⟩
      obtain ⟨c0, c1⟩ := hi3.mk_reaches hr ((hr0.ext x2.cells).ext x3.cells) (hr1.ext x3.cells)
      exact New.cells (New.seq3 n0 x2.cells n1 x3.cells n3 c0 c1) e4

theorem iteOp_okBT (hs : SemIte md) (bad : Prop)
    {f g h : Nat} {tf tg th : Tree} (hi : Inv cfg md refs s) (hf : Repr s.cells f tf) (hg : Repr s.cells g tg)
    (hh : Repr s.cells h th) (hsafe : bad ∨ IteSafe s.nvars tf tg th) :
    SpecB bad cfg md refs (iteOp cfg f g h) s (PostIteT md.sem md.irel tf tg th s) := by
  unfold iteOp
  refine SpecB.read_bind (a := s) rfl (iteRec_ok hs bad _ f g h tf tg th s hi hf hg hh hsafe (by unfold fuel3; omega) (Or.inl ?_))
  have := hi.ht _ _ hf
  have := hi.ht _ _ hg
  have := hi.ht _ _ hh
  unfold fuel3; simp; omega

theorem iteOp_okB (hs : SemIte md) (bad : Prop)
    {f g h : Nat} {tf tg th : Tree} (hi : Inv cfg md refs s) (hf : Repr s.cells f tf) (hg : Repr s.cells g tg)
    (hh : Repr s.cells h th) (hsafe : bad ∨ IteSafe s.nvars tf tg th) :
    SpecB bad cfg md refs (iteOp cfg f g h) s (PostIte md.sem tf tg th s) :=
  (iteOp_okBT hs bad hi hf hg hh hsafe).mono fun _ _ _ _ h => h.post

theorem iteOp_ok (hs : SemIte md)
    {f g h : Nat} {tf tg th : Tree} (hi : Inv cfg md refs s) (hf : Repr s.cells f tf) (hg : Repr s.cells g tg)
    (hh : Repr s.cells h th) (hsafe : IteSafe s.nvars tf tg th) :
    Spec cfg md refs (iteOp cfg f g h) s (PostIte md.sem tf tg th s) :=
  SpecB_false.1 (iteOp_okB hs False hi hf hg hh (Or.inr hsafe))

end
end LBDD
