import Verif.Proof.Rebase
/-! Limited conjunction (`and_rec_limited`). -/
namespace LBDD

/-- The nodes of a BDD, listed with repetitions. -/
def unfolding (c : Nat → Cell) : Nat → Tree → List Nat
  | _, .bot => []
  | _, .top => []
  | p, .node _ l h => p :: (unfolding c (c p).lo l ++ unfolding c (c p).hi h)

theorem unfolding_length (c : Nat → Cell) : ∀ (t : Tree) (p : Nat), (unfolding c p t).length = t.size
  | .bot, _ => rfl
  | .top, _ => rfl
  | .node v l h, p => by
    simp only [unfolding, List.length_cons, List.length_append, unfolding_length c l, unfolding_length c h, Tree.size]

theorem Reaches.mem_unfolding {c : Nat → Cell} {p q : Nat} (h : Reaches c p q) (q2 : 2 ≤ q) : ∀ {t : Tree}, Repr c p t → q ∈ unfolding c p t := by
  induction h with
  | refl p => intro t h; obtain ⟨_, _, rfl, _⟩ := h.inv q2; simp [unfolding]
  | lo h2 _ _ ih => intro t h; obtain ⟨_, _, rfl, _, _, h3, _⟩ := h.inv h2; simp [unfolding, ih q2 h3]
  | hi h2 _ _ ih => intro t h; obtain ⟨_, _, rfl, _, _, _, h3⟩ := h.inv h2; simp [unfolding, ih q2 h3]

theorem nodup_sub_length : ∀ {l m : List Nat}, l.Nodup → (∀ q, q ∈ l → q ∈ m) → l.length ≤ m.length
  | [], _, _, _ => Nat.zero_le _
  | a :: l, m, hn, hs => by
    have ha := hs a (by simp)
    have hn' := List.nodup_cons.1 hn
    have := nodup_sub_length (l := l) (m := m.erase a) hn'.2 (by
      intro q hq
      have hne : q ≠ a := fun e => hn'.1 (e ▸ hq)
      exact (List.mem_erase_of_ne hne).2 (hs q (by simp [hq])))
    rw [List.length_erase_of_mem ha] at this
    have : 0 < m.length := List.length_pos_of_mem ha
    simp only [List.length_cons]
    omega

theorem mul_split (a b c d : Nat) : a * c + b * d ≤ (a + b) * (c + d) := by
  rw [Nat.add_mul, Nat.mul_add, Nat.mul_add]; omega

theorem Lists.length_le {c : Nat → Cell} {p : Nat} {l : List Nat} (h : Lists c p l) {t : Tree} (hp : Repr c p t) : l.length ≤ t.size := by
  rw [← unfolding_length c t p]
  refine nodup_sub_length h.nodup ?_
  intro q hq
  obtain ⟨q2, hr⟩ := (h.mem q).1 hq
  exact hr.mem_unfolding q2 hp

/-- Conjunction of ordered trees. -/
def andT : Nat → Tree → Tree → Tree
  | 0, _, _ => .bot
  | _ + 1, .bot, _ => .bot
  | _ + 1, _, .bot => .bot
  | _ + 1, .top, g => g
  | _ + 1, f, .top => f
  | n + 1, .node v fl fh, .node w gl gh =>
    if v < w then mkTree v (andT n fl (.node w gl gh)) (andT n fh (.node w gl gh))
    else if w < v then mkTree w (andT n (.node v fl fh) gl) (andT n (.node v fl fh) gh)
    else mkTree v (andT n fl gl) (andT n fh gh)

theorem mkTree_size (v : Nat) (l h : Tree) : (mkTree v l h).size ≤ l.size + h.size + 1 := by
  unfold mkTree; split
  · omega
  · simp [Tree.size]

theorem mkTree_ordered {v : Nat} {l h : Tree} (hl : l.Ordered) (hh : h.Ordered) (h1 : ∀ w, l.Mem w ∨ h.Mem w → v < w) : (mkTree v l h).Ordered := by
  unfold mkTree; split
  · exact hl
  · exact ⟨fun w hw => h1 w (Or.inl hw), fun w hw => h1 w (Or.inr hw), hl, hh⟩

theorem mkTree_reduced {v : Nat} {l h : Tree} (hl : l.Reduced) (hh : h.Reduced) : (mkTree v l h).Reduced := by
  unfold mkTree; split
  · exact hl
  · rename_i e; exact ⟨e, hl, hh⟩

theorem andT_ok : ∀ (n : Nat) (f g : Tree), f.height + g.height < n → f.Ordered → g.Ordered → f.Reduced → g.Reduced →
    (andT n f g).Ordered ∧ (andT n f g).Reduced ∧ (∀ x, (andT n f g).eval x = (f.eval x && g.eval x)) ∧
    (∀ w, (andT n f g).Mem w → f.Mem w ∨ g.Mem w) ∧ (andT n f g).size + 1 ≤ (f.size + 1) * (g.size + 1) := by
  intro n
  induction n with
  | zero => intro f g h; omega
  | succ n ih =>
    intro f g hn of og rf rg
    match f, g, hn, of, og, rf, rg with
    | .bot, g, _, _, _, _, _ => 
      simp only [andT]
      exact ⟨trivial, trivial, fun x => by simp [Tree.eval], fun w h => h.elim, by simp [Tree.size]⟩
    | .top, .bot, _, _, _, _, _ => exact ⟨trivial, trivial, fun x => by simp [andT, Tree.eval], fun w h => h.elim, by simp [andT, Tree.size]⟩
    | .node v fl fh, .bot, _, _, _, _, _ => exact ⟨trivial, trivial, fun x => by simp [andT, Tree.eval], fun w h => h.elim, by simp [andT, Tree.size]⟩
    | .top, .top, _, _, _, _, _ => exact ⟨trivial, trivial, fun x => by simp [andT, Tree.eval], fun w h => h.elim, by simp [andT, Tree.size]⟩
    | .top, .node w gl gh, _, _, og, _, rg =>
      simp only [andT]
      exact ⟨og, rg, fun x => by simp [Tree.eval], fun w h => Or.inr h, by simp [Tree.size]⟩
    | .node v fl fh, .top, _, of, _, rf, _ =>
      simp only [andT]
      exact ⟨of, rf, fun x => by simp [Tree.eval], fun w h => Or.inl h, by simp [Tree.size]⟩
    | .node v fl fh, .node w gl gh, hn, of, og, rf, rg =>
      simp only [Tree.height] at hn
      simp only [andT]
      split
      · rename_i hlt
        obtain ⟨a1, a2, a3, a4, a5⟩ := ih fl (.node w gl gh) (by simp only [Tree.height]; omega) of.2.2.1 og rf.2.1 rg
        obtain ⟨b1, b2, b3, b4, b5⟩ := ih fh (.node w gl gh) (by simp only [Tree.height]; omega) of.2.2.2 og rf.2.2 rg
        have gl' : ∀ u, (Tree.node w gl gh).Mem u → v < u := by
          rintro u (rfl | h | h)
          · exact hlt
          · have := og.1 u h; omega
          · have := og.2.1 u h; omega
        refine ⟨mkTree_ordered a1 b1 ?_, mkTree_reduced a2 b2, ?_, ?_, ?_⟩
        · rintro u (h | h)
          · rcases a4 u h with h | h
            · exact of.1 u h
            · exact gl' u h
          · rcases b4 u h with h | h
            · exact of.2.1 u h
            · exact gl' u h
        · intro x; rw [mkTree_eval, a3, b3]
          show _ = ((if x v then fh.eval x else fl.eval x) && _)
          split <;> rfl
        · intro u hu
          rcases mkTree_mem hu with h | h | h
          · exact Or.inl (Or.inl h)
          · exact (a4 u h).imp (fun h => Or.inr (Or.inl h)) id
          · exact (b4 u h).imp (fun h => Or.inr (Or.inr h)) id
        · have := mkTree_size v (andT n fl (.node w gl gh)) (andT n fh (.node w gl gh))
          have e : ((Tree.node v fl fh).size + 1) * ((Tree.node w gl gh).size + 1) =
              (fl.size + 1) * ((Tree.node w gl gh).size + 1) + (fh.size + 1) * ((Tree.node w gl gh).size + 1) := by
            rw [← Nat.add_mul]; simp only [Tree.size]; congr 1; omega
          omega
      · split
        · rename_i hlt
          obtain ⟨a1, a2, a3, a4, a5⟩ := ih (.node v fl fh) gl (by simp only [Tree.height]; omega) of og.2.2.1 rf rg.2.1
          obtain ⟨b1, b2, b3, b4, b5⟩ := ih (.node v fl fh) gh (by simp only [Tree.height]; omega) of og.2.2.2 rf rg.2.2
          have gl' : ∀ u, (Tree.node v fl fh).Mem u → w < u := by
            rintro u (rfl | h | h)
            · exact hlt
            · have := of.1 u h; omega
            · have := of.2.1 u h; omega
          refine ⟨mkTree_ordered a1 b1 ?_, mkTree_reduced a2 b2, ?_, ?_, ?_⟩
          · rintro u (h | h)
            · rcases a4 u h with h | h
              · exact gl' u h
              · exact og.1 u h
            · rcases b4 u h with h | h
              · exact gl' u h
              · exact og.2.1 u h
          · intro x; rw [mkTree_eval, a3, b3]
            show _ = (_ && (if x w then gh.eval x else gl.eval x))
            split <;> rfl
          · intro u hu
            rcases mkTree_mem hu with h | h | h
            · exact Or.inr (Or.inl h)
            · exact (a4 u h).imp id (fun h => Or.inr (Or.inl h))
            · exact (b4 u h).imp id (fun h => Or.inr (Or.inr h))
          · have := mkTree_size w (andT n (.node v fl fh) gl) (andT n (.node v fl fh) gh)
            have e : ((Tree.node v fl fh).size + 1) * ((Tree.node w gl gh).size + 1) =
                ((Tree.node v fl fh).size + 1) * (gl.size + 1) + ((Tree.node v fl fh).size + 1) * (gh.size + 1) := by
              rw [← Nat.mul_add]; simp only [Tree.size]; congr 1; omega
            omega
        · rename_i h1 h2
          have : v = w := by omega
          subst this
          obtain ⟨a1, a2, a3, a4, a5⟩ := ih fl gl (by omega) of.2.2.1 og.2.2.1 rf.2.1 rg.2.1
          obtain ⟨b1, b2, b3, b4, b5⟩ := ih fh gh (by omega) of.2.2.2 og.2.2.2 rf.2.2 rg.2.2
          refine ⟨mkTree_ordered a1 b1 ?_, mkTree_reduced a2 b2, ?_, ?_, ?_⟩
          · rintro u (h | h)
            · rcases a4 u h with h | h
              · exact of.1 u h
              · exact og.1 u h
            · rcases b4 u h with h | h
              · exact of.2.1 u h
              · exact og.2.1 u h
          · intro x; rw [mkTree_eval, a3, b3]
            show _ = ((if x v then fh.eval x else fl.eval x) && (if x v then gh.eval x else gl.eval x))
            split <;> rfl
          · intro u hu
            rcases mkTree_mem hu with h | h | h
            · exact Or.inl (Or.inl h)
            · exact (a4 u h).imp (fun h => Or.inr (Or.inl h)) (fun h => Or.inr (Or.inl h))
            · exact (b4 u h).imp (fun h => Or.inr (Or.inr h)) (fun h => Or.inr (Or.inr h))
          · have := mkTree_size v (andT n fl gl) (andT n fh gh)
            have e : ((Tree.node v fl fh).size + 1) * ((Tree.node v gl gh).size + 1) ≥
                (fl.size + 1) * (gl.size + 1) + (fh.size + 1) * (gh.size + 1) := by
              have e1 : (Tree.node v fl fh).size + 1 = (fl.size + 1) + (fh.size + 1) := by simp only [Tree.size]; omega
              have e2 : (Tree.node v gl gh).size + 1 = (gl.size + 1) + (gh.size + 1) := by simp only [Tree.size]; omega
              rw [e1, e2]
              exact mul_split _ _ _ _
            omega

/-- Upper bound on the size of a conjunction. -/
def andBound (tf tg : Tree) : Nat := (tf.size + 1) * (tg.size + 1)

section
variable {cfg : Cfg} {md : Md} {refs : Nat → Nat} {s : Mgr}

/-- Result of `and_rec_limited`: a non-null result is the conjunction; in ordered managers the returned count is at most
`andBound`, and null is only returned when the limit is below that. -/
def LimPost (md : Md) (limit : Nat) (tf tg : Tree) (o : Option (Nat × Nat)) (s' : Mgr) : Prop :=
  match o with
  | none => md.ordered → limit < andBound tf tg
  | some (r, k) => (∃ tr, Repr s'.cells r tr ∧ (∀ x, tr.eval x = (tf.eval x && tg.eval x)) ∧ (∀ w, tr.Mem w → tf.Mem w ∨ tg.Mem w) ∧ tr = tAnd tf tg) ∧
      (md.ordered → k ≤ andBound tf tg)

theorem LimPost.symm {limit : Nat} {tf tg : Tree} {o : Option (Nat × Nat)} {s' : Mgr} (h : LimPost md limit tf tg o s') :
    LimPost md limit tg tf o s' := by
  have e : andBound tg tf = andBound tf tg := Nat.mul_comm _ _
  cases o with
  | none => intro ho; rw [e]; exact h ho
  | some p =>
    obtain ⟨⟨tr, h1, h2, h3, h5⟩, h4⟩ := h
    exact ⟨⟨tr, h1, fun x => by rw [h2, Bool.and_comm], fun w hw => (h3 w hw).symm, by rw [h5, tAnd_comm]⟩, fun ho => by rw [e]; exact h4 ho⟩

theorem size_le_andBound_left (tf tg : Tree) : tf.size ≤ andBound tf tg := by
  unfold andBound; rw [Nat.mul_add]; omega
theorem size_le_andBound_right (tf tg : Tree) : tg.size ≤ andBound tf tg := by
  unfold andBound; rw [Nat.add_mul]; omega

theorem cof_bound {c d : Bool} {vf vg : Nat} {fl fh gl gh : Tree} (h : c = true ∨ d = true) :
    andBound (cof c false (.node vf fl fh)) (cof d false (.node vg gl gh)) + andBound (cof c true (.node vf fl fh)) (cof d true (.node vg gl gh)) ≤
      andBound (.node vf fl fh) (.node vg gl gh) := by
  have e1 : (Tree.node vf fl fh).size + 1 = (fl.size + 1) + (fh.size + 1) := by simp only [Tree.size]; omega
  have e2 : (Tree.node vg gl gh).size + 1 = (gl.size + 1) + (gh.size + 1) := by simp only [Tree.size]; omega
  cases c <;> cases d
  · rcases h with h | h <;> cases h
  · show ((Tree.node vf fl fh).size + 1) * (gl.size + 1) + ((Tree.node vf fl fh).size + 1) * (gh.size + 1) ≤ ((Tree.node vf fl fh).size + 1) * _
    rw [e2, ← Nat.mul_add]; exact Nat.le_refl _
  · show (fl.size + 1) * ((Tree.node vg gl gh).size + 1) + (fh.size + 1) * ((Tree.node vg gl gh).size + 1) ≤ _ * ((Tree.node vg gl gh).size + 1)
    rw [e1, ← Nat.add_mul]; exact Nat.le_refl _
  · show (fl.size + 1) * (gl.size + 1) + (fh.size + 1) * (gh.size + 1) ≤ ((Tree.node vf fl fh).size + 1) * ((Tree.node vg gl gh).size + 1)
    rw [e1, e2]; exact mul_split _ _ _ _

/-- Like `Spec`, but a failed assert is allowed if `bad` holds. -/
def SpecA (bad : Prop) (cfg : Cfg) (md : Md) (refs : Nat → Nat) {α : Type} (m : M Mgr α) (s : Mgr)
    (P : α → Mgr → Prop) : Prop :=
  match m s with
  | .ub => False
  | .ok a s' => Ext s s' ∧ Inv cfg md refs s' ∧ P a s'
  | .throw s' => Thrown cfg md refs s s'
  | .assertFail => bad
  | .hang => False

section
variable {bad : Prop} {α β : Type}
theorem SpecA_false {m : M Mgr α} {P : α → Mgr → Prop} : SpecA False cfg md refs m s P ↔ Spec cfg md refs m s P := by
  unfold SpecA Spec M.Sat
  cases m s <;> exact Iff.rfl

theorem Spec.toA {m : M Mgr α} {P : α → Mgr → Prop} (h : Spec cfg md refs m s P) : SpecA bad cfg md refs m s P := by
  unfold Spec M.Sat at h
  unfold SpecA
  split at h <;> simp_all

theorem SpecA.bind {m : M Mgr α} {f : α → M Mgr β} {P : α → Mgr → Prop} {R : β → Mgr → Prop}
    (h : SpecA bad cfg md refs m s P)
    (hf : ∀ a s', Ext s s' → Inv cfg md refs s' → P a s' → SpecA bad cfg md refs (f a) s' R) :
    SpecA bad cfg md refs (m >>= f) s R := by
  show SpecA bad cfg md refs (M.bind m f) s R
  unfold SpecA M.bind
  unfold SpecA at h
  cases hm : m s with
  | ok a s1 =>
    rw [hm] at h
    obtain ⟨h1, h2, h3⟩ := h
    have := hf a s1 h1 h2 h3
    unfold SpecA at this
    simp only
    cases hm2 : f a s1 with
    | ok b s2 => rw [hm2] at this; exact ⟨h1.trans this.1, this.2⟩
    | throw s2 => rw [hm2] at this; exact this.of_grow h1.grow
    | assertFail => rw [hm2] at this; exact this
    | hang => rw [hm2] at this; exact this
    | ub => rw [hm2] at this; exact this
  | throw s1 => rw [hm] at h; exact h
  | assertFail => rw [hm] at h; exact h
  | hang => rw [hm] at h; exact h
  | ub => rw [hm] at h; exact h

theorem SpecA.mono {m : M Mgr α} {P R : α → Mgr → Prop} (h : SpecA bad cfg md refs m s P)
    (hf : ∀ a s', Ext s s' → Inv cfg md refs s' → P a s' → R a s') : SpecA bad cfg md refs m s R := by
  unfold SpecA at *
  split <;> simp_all

theorem SpecA.pure {a : α} {P : α → Mgr → Prop} (hi : Inv cfg md refs s) (h : P a s) :
    SpecA bad cfg md refs (Pure.pure a) s P := ⟨.refl _, hi, h⟩

theorem SpecA.read_bind {m : M Mgr α} {a : α} {f : α → M Mgr β} {R : β → Mgr → Prop}
    (hm : m s = .ok a s) (h : SpecA bad cfg md refs (f a) s R) : SpecA bad cfg md refs (m >>= f) s R := by
  show SpecA bad cfg md refs (M.bind m f) s R
  unfold SpecA M.bind
  rw [hm]
  exact h

theorem SpecA.nrNodes_bind (hi : Inv cfg md refs s) {p : Nat} {t : Tree} (hp : Repr s.cells p t) (hsk : bad ∨ SinkOk cfg)
    {f : Nat → M Mgr β} {R : β → Mgr → Prop} (h : ∀ l, Lists s.cells p l → SpecA bad cfg md refs (f l.length) s R) :
    SpecA bad cfg md refs (nrNodes cfg p >>= f) s R := by
  by_cases hm : MarkOk cfg s p
  · obtain ⟨l, hl, e⟩ := nrNodes_ok hi hp hm
    exact SpecA.read_bind e (h l hl)
  · rcases hsk with hb | hsk
    · have hmk : s.marks p = true := by
        cases e : s.marks p with
        | true => rfl
        | false => exact absurd (Or.inr (Or.inr e)) hm
      have hnd : cfg.ndebug = false := by
        cases e : cfg.ndebug with
        | false => rfl
        | true => exact absurd (Or.inr (Or.inl e)) hm
      have e : nrNodes cfg p s = .assertFail := by
        unfold nrNodes
        rw [M.get_bind_apply, M.bind_ok (getMark_ok s p)]
        show M.bind _ _ s = _
        unfold M.bind M.assert
        rw [hmk, hnd]
        rfl
      show SpecA bad cfg md refs (M.bind _ _) s R
      unfold SpecA M.bind
      rw [e]
      exact hb
    · exact absurd (hsk.mark hi p) hm
end

theorem andLimRec_ok {bad : Prop} (hsk : bad ∨ SinkOk cfg) (limit : Nat) : ∀ (n N f g : Nat) (tf tg : Tree) (s : Mgr), Inv cfg md refs s → Repr s.cells f tf → Repr s.cells g tg →
    Fits md s.nvars N [tf, tg] → 2 * N + 1 + (if cfg.addr g < cfg.addr f then 1 else 0) ≤ n →
    SpecA bad cfg md refs (andLimRec cfg limit n f g) s (fun o s' => LimPost md limit tf tg o s') := by
  intro n
  induction n with
  | zero => intro N f g tf tg s _ _ _ _ hn; omega
  | succ n ih =>
    intro N f g tf tg s hi hf hg hN hn
    unfold andLimRec
    split
    · rename_i e; subst e
      cases hf.fn hg
      refine SpecA.nrNodes_bind hi hf hsk fun l hl => ?_
      have := hl.length_le hf
      have := size_le_andBound_left tf tf
      split
      · exact SpecA.pure hi (fun _ => by omega)
      · exact SpecA.pure hi ⟨⟨tf, hf, fun x => by simp, fun w hw => Or.inl hw, (tAnd_same _).symm⟩, fun _ => by omega⟩
    · split
      · rename_i hlt
        rw [if_pos hlt] at hn
        refine (ih N g f tg tf s hi hg hf hN.perm ?_).mono ?_
        · rw [if_neg (by omega)]; omega
        · intro r s' _ _ h
          exact h.symm
      · split
        · rename_i e; subst e
          cases Repr.top_iff.1 hf
          refine SpecA.nrNodes_bind hi hg hsk fun l hl => ?_
          have := hl.length_le hg
          have := size_le_andBound_right .top tg
          exact SpecA.pure hi ⟨⟨tg, hg, fun x => by simp [Tree.eval], fun w hw => Or.inr hw, (tAnd_top _).symm⟩, fun _ => by omega⟩
        split
        · rename_i e; subst e
          cases Repr.bot_iff.1 hf
          exact SpecA.pure hi ⟨⟨.bot, .bot, fun x => by simp [Tree.eval], fun w hw => hw.elim, (tAnd_bot _).symm⟩, fun _ => Nat.zero_le _⟩
        split
        · rename_i e; subst e
          cases Repr.top_iff.1 hg
          refine SpecA.nrNodes_bind hi hf hsk fun l hl => ?_
          have := hl.length_le hf
          have := size_le_andBound_left tf .top
          exact SpecA.pure hi ⟨⟨tf, hf, fun x => by simp [Tree.eval], fun w hw => Or.inl hw, by rw [tAnd_comm, tAnd_top]⟩, fun _ => by omega⟩
        split
        · rename_i e; subst e
          cases Repr.bot_iff.1 hg
          exact SpecA.pure hi ⟨⟨.bot, .bot, fun x => by simp [Tree.eval], fun w hw => hw.elim, by rw [tAnd_comm, tAnd_bot]⟩, fun _ => Nat.zero_le _⟩
        rename_i hfg _ f1 f0 g1 g0
        have f2 := two_le_of f0 f1
        have g2 := two_le_of g0 g1
        have hR : TagR md andTag (fun a b c => c = (a && b)) (fun f g r => r = tAnd f g) := Or.inl ⟨rfl, rfl, rfl⟩
        obtain ⟨o, ho1, ho2⟩ := cacheLookup_ok hi f g andTag
        refine SpecA.read_bind ho1 ?_
        cases o with
        | some r =>
          simp only
          obtain ⟨tr, h1, h2, h3, h5⟩ := hR.of_entry hf hg (ho2 r rfl)
          refine SpecA.nrNodes_bind hi h1 hsk fun l hl => ?_
          have hsz : md.ordered → l.length < andBound tf tg := by
            intro hmd
            have of_ := hi.ord hmd _ _ hf
            have og_ := hi.ord hmd _ _ hg
            obtain ⟨a1, a2, a3, _, a5⟩ := andT_ok (tf.height + tg.height + 1) tf tg (by omega) of_ og_ (hi.reduced hf) (hi.reduced hg)
            have : tr = andT (tf.height + tg.height + 1) tf tg :=
              Tree.eq_of_eval (hi.ord hmd _ _ h1) a1 (hi.reduced h1) a2 (fun x => by rw [h2, a3])
            have hlen := hl.length_le h1
            rw [this] at hlen
            unfold andBound; omega
          split
          · exact SpecA.pure hi ⟨⟨tr, h1, h2, h3, h5⟩, fun hmd => by have := hsz hmd; omega⟩
          · exact SpecA.pure hi (fun hmd => by have := hsz hmd; omega)
        | none =>
          simp only
          refine SpecA.read_bind (varOf_ok hi hf f2) ?_
          refine SpecA.read_bind (varOf_ok hi hg g2) ?_
          obtain ⟨fl, fh, htf, fl1, _, _, _⟩ := hf.inv f2
          obtain ⟨gl, gh, htg, gl1, _, _, _⟩ := hg.inv g2
          have hfv := (hi.node f f2 fl1).1
          have hgv := (hi.node g g2 gl1).1
          have hp := pickMin_or (s.cells f).index (s.cells g).index
          have hm := pickMin_le (s.cells f).index (s.cells g).index
          generalize hvf : (s.cells f).index = vf at *
          generalize hvg : (s.cells g).index = vg at *
          generalize hvv : pickMin vf vg = v at *
          have hvn : v < s.nvars := by rcases hp with h | h <;> omega
          have hcd : (v == vf) = true ∨ (v == vg) = true := by rcases hp with h | h <;> simp [h]
          have hbnd := cof_bound (vf := vf) (vg := vg) (fl := fl) (fh := fh) (gl := gl) (gh := gh) hcd
          rw [← htf, ← htg] at hbnd
          have hlt0 : ∀ b, (cof (v == vf) b tf).height + (cof (v == vg) b tg).height < tf.height + tg.height := by
            intro b
            have a1 := cof_height_le (v == vf) b tf
            have a2 := cof_height_le (v == vg) b tg
            rcases hp with h | h
            · have : (v == vf) = true := by simp [h]
              rw [this] at a1 ⊢
              have := cof_height_lt (b := b) (v := vf) (l := fl) (h := fh)
              rw [← htf] at this
              omega
            · have : (v == vg) = true := by simp [h]
              rw [this] at a2 ⊢
              have := cof_height_lt (b := b) (v := vg) (l := gl) (h := gh)
              rw [← htg] at this
              omega
          have hfit : ∀ b, 0 < N ∧ Fits md s.nvars (N - 1) [cof (v == vf) b tf, cof (v == vg) b tg] := by
            intro b
            refine hN.split (v := v) (by have := hlt0 b; simp; omega) hvn ?_ ?_
            · rcases hp with h | h
              · exact ⟨tf, by simp, by rw [htf]; exact Or.inl h⟩
              · exact ⟨tg, by simp, by rw [htg]; exact Or.inl h⟩
            · intro hmd t ht w hw
              have of_ := hi.ord hmd _ _ hf
              have og_ := hi.ord hmd _ _ hg
              rw [htf] at of_
              rw [htg] at og_
              simp only [List.mem_cons, List.not_mem_nil, or_false] at ht
              rcases ht with rfl | rfl
              · rw [htf] at hw; exact cof_lt of_ (by simp) hm.1 hw
              · rw [htg] at hw; exact cof_lt og_ (by simp) hm.2 hw
          have hfuel : ∀ (f' g' : Nat), 2 * (N - 1) + 1 + (if cfg.addr g' < cfg.addr f' then 1 else 0) ≤ n := by
            intro f' g'
            have := (hfit true).1
            have : (if cfg.addr g' < cfg.addr f' then 1 else 0) ≤ 1 := by split <;> omega
            omega
          obtain ⟨f0', e1, hf0⟩ := lowIf_ok (c := v == vf) hf (fun _ => f2)
          refine SpecA.read_bind e1 ?_
          obtain ⟨g0', e2, hg0⟩ := lowIf_ok (c := v == vg) hg (fun _ => g2)
          refine SpecA.read_bind e2 ?_
          refine SpecA.bind (ih (N - 1) f0' g0' _ _ s hi hf0 hg0 (hfit false).2 (hfuel f0' g0')) ?_
          rintro o0 s1 x1 hi1 p0
          cases o0 with
          | none => exact SpecA.pure hi1 (fun hmd => by have := p0 hmd; omega)
          | some rk0 =>
            obtain ⟨r0, k0⟩ := rk0
            obtain ⟨⟨t0, hr0, ht0, hv0, q0⟩, b0⟩ := p0
            simp only
            split
            · exact SpecA.pure hi1 (fun hmd => by have := b0 hmd; omega)
            obtain ⟨f1', e3, hf1⟩ := highIf_ok (c := v == vf) (hf.ext x1.cells) (fun _ => f2)
            refine SpecA.read_bind e3 ?_
            obtain ⟨g1', e4, hg1⟩ := highIf_ok (c := v == vg) (hg.ext x1.cells) (fun _ => g2)
            refine SpecA.read_bind e4 ?_
            refine SpecA.bind (ih (N - 1) f1' g1' _ _ s1 hi1 hf1 hg1 (by rw [x1.nvars]; exact (hfit true).2) (hfuel f1' g1')) ?_
            rintro o1 s2 x2 hi2 p1
            cases o1 with
            | none => exact SpecA.pure hi2 (fun hmd => by have := p1 hmd; omega)
            | some rk1 =>
              obtain ⟨r1, k1⟩ := rk1
              obtain ⟨⟨t1, hr1, ht1, hv1, q1⟩, b1⟩ := p1
              simp only
              split
              · exact SpecA.pure hi2 (fun hmd => by have := b0 hmd; have := b1 hmd; omega)
              have hr0' := hr0.ext x2.cells
              have hord : md.ordered → ∀ w, t0.Mem w ∨ t1.Mem w → v < w := by
                intro hmd w hw
                have of_ := hi.ord hmd _ _ hf
                have og_ := hi.ord hmd _ _ hg
                rw [htf] at of_
                rw [htg] at og_
                rcases hw with hw | hw
                · rcases hv0 w hw with h | h
                  · rw [htf] at h; exact cof_lt of_ (by simp) hm.1 h
                  · rw [htg] at h; exact cof_lt og_ (by simp) hm.2 h
                · rcases hv1 w hw with h | h
                  · rw [htf] at h; exact cof_lt of_ (by simp) hm.1 h
                  · rw [htg] at h; exact cof_lt og_ (by simp) hm.2 h
              refine SpecA.bind (uniqueFind_spec hi2 (by rw [x2.nvars, x1.nvars]; exact hvn) hr0' hr1 hord).toA ?_
              rintro r s3 x3 hi3 ⟨hr, n3⟩
              have heval : ∀ x, (mkTree v t0 t1).eval x = (tf.eval x && tg.eval x) := by
                intro x
                rw [mkTree_eval]
                have cf := cof_eval (v := v) (c := v == vf) (v' := vf) (l := fl) (h := fh) (by simp) x
                have cg := cof_eval (v := v) (c := v == vg) (v' := vg) (l := gl) (h := gh) (by simp) x
                rw [← htf] at cf
                rw [← htg] at cg
                rw [← cf, ← cg]
                cases hx : x v
                · simpa using ht0 x
                · simpa using ht1 x
              have hvars : ∀ w, (mkTree v t0 t1).Mem w → tf.Mem w ∨ tg.Mem w := by
                intro w hw
                rcases mkTree_mem hw with rfl | hw | hw
                · rcases hp with h | h
                  · left; rw [htf]; exact Or.inl h
                  · right; rw [htg]; exact Or.inl h
                · rcases hv0 w hw with h | h
                  · exact Or.inl (cof_mem h)
                  · exact Or.inr (cof_mem h)
                · rcases hv1 w hw with h | h
                  · exact Or.inl (cof_mem h)
                  · exact Or.inr (cof_mem h)
              have htree : mkTree v t0 t1 = tAnd tf tg := by
                have hne : tf ≠ tg := fun e => hfg (hi.repr_inj hf (e ▸ hg))
                rw [htf, htg] at hne q0 q1 ⊢
                subst hvv
                exact tAnd_step vf vg fl fh gl gh t0 t1 hne q0 q1
              have x123 := (x1.trans x2).trans x3
              refine SpecA.bind (cacheInsert_ok hi3 (hR.entry (hf.ext x123.cells) (hg.ext x123.cells) hr heval hvars htree)).toA ?_
              intro _ s4 x4 hi4 e4
              refine SpecA.pure hi4 ⟨⟨_, hr.ext x4.cells, heval, hvars, htree⟩, fun hmd => ?_⟩
              have := b0 hmd; have := b1 hmd; omega

theorem andLimited_okA {bad : Prop} (hsk : bad ∨ SinkOk cfg) (hi : Inv cfg md refs s) {f g : Nat} {tf tg : Tree} (hf : Repr s.cells f tf)
    (hg : Repr s.cells g tg) (limit : Nat) :
    SpecA bad cfg md refs (andLimited cfg f g limit) s (fun o s' => LimPost md limit tf tg o s') := by
  unfold andLimited
  exact SpecA.read_bind rfl (andLimRec_ok hsk limit _ _ f g tf tg s hi hf hg (fuel2_ok hi hf hg).1 (fuel2_ok hi hf hg).2)

theorem andLimited_ok (hsk : SinkOk cfg) (hi : Inv cfg md refs s) {f g : Nat} {tf tg : Tree} (hf : Repr s.cells f tf) (hg : Repr s.cells g tg) (limit : Nat) :
    Spec cfg md refs (andLimited cfg f g limit) s (fun o s' => LimPost md limit tf tg o s') :=
  SpecA_false.1 (andLimited_okA (Or.inr hsk) hi hf hg limit)
end
end LBDD
