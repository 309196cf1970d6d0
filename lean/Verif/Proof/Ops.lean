import Verif.Proof.Memo
/-! Correctness of `and_rec`, `or_rec`, `xor_rec`, `negate`. -/
namespace LBDD
section
variable {cfg : Cfg} {md : Md} {refs : Nat → Nat} {s : Mgr}

/-- `r` is a BDD whose function relates to those of two operands by `R`, over their variables. -/
def Post2 (R : Bool → Bool → Bool → Prop) (tf tg : Tree) (s : Mgr) (r : Nat) (s' : Mgr) : Prop :=
  ∃ tr, Repr s'.cells r tr ∧ (∀ x, R (tf.eval x) (tg.eval x) (tr.eval x)) ∧ (∀ w, tr.Mem w → tf.Mem w ∨ tg.Mem w) ∧
    New s s' r

/-- Moreover the decision trees of the operands and the result relate by `T`. -/
def Post2T (R : Bool → Bool → Bool → Prop) (T : Tree → Tree → Tree → Prop) (tf tg : Tree) (s : Mgr) (r : Nat) (s' : Mgr) : Prop :=
  ∃ tr, Repr s'.cells r tr ∧ (∀ x, R (tf.eval x) (tg.eval x) (tr.eval x)) ∧ (∀ w, tr.Mem w → tf.Mem w ∨ tg.Mem w) ∧ T tf tg tr ∧
    New s s' r

theorem Post2T.post {R : Bool → Bool → Bool → Prop} {T : Tree → Tree → Tree → Prop} {tf tg : Tree} {s s' : Mgr} {r : Nat}
    (h : Post2T R T tf tg s r s') : Post2 R tf tg s r s' := by
  obtain ⟨tr, h1, h2, h3, _, h5⟩ := h
  exact ⟨tr, h1, h2, h3, h5⟩

/-- The relations of operands and result stored under a tag. -/
def TagR (md : Md) (tag : Nat) (R : Bool → Bool → Bool → Prop) (T : Tree → Tree → Tree → Prop) : Prop :=
  (tag = andTag ∧ (R = fun a b c => c = (a && b)) ∧ T = fun f g r => r = tAnd f g) ∨ (tag = orTag ∧ R = md.sem ∧ T = md.rel)

theorem TagR.entry {tag : Nat} {R : Bool → Bool → Bool → Prop} {T : Tree → Tree → Tree → Prop} (h : TagR md tag R T) {cells : Nat → Cell}
    {f g r : Nat} {tf tg tr : Tree} (hf : Repr cells f tf) (hg : Repr cells g tg) (hr : Repr cells r tr)
    (he : ∀ x, R (tf.eval x) (tg.eval x) (tr.eval x)) (hv : ∀ w, tr.Mem w → tf.Mem w ∨ tg.Mem w)
    (ht : T tf tg tr) : EntryOk cfg md cells ⟨some f, some g, tag, some r⟩ := by
  intro r' hr'
  cases hr'
  refine ⟨f, g, tf, tg, tr, rfl, rfl, hf, hg, hr, ?_⟩
  rcases h with ⟨rfl, rfl, rfl⟩ | ⟨rfl, rfl, rfl⟩
  · exact Or.inl ⟨rfl, he, hv, ht⟩
  · exact Or.inr (Or.inl ⟨rfl, he, hv, ht⟩)

theorem TagR.of_entry {tag : Nat} {R : Bool → Bool → Bool → Prop} {T : Tree → Tree → Tree → Prop} (h : TagR md tag R T) {cells : Nat → Cell}
    {f g r : Nat} {tf tg : Tree} (hf : Repr cells f tf) (hg : Repr cells g tg)
    (he : EntryOk cfg md cells ⟨some f, some g, tag, some r⟩) :
    ∃ tr, Repr cells r tr ∧ (∀ x, R (tf.eval x) (tg.eval x) (tr.eval x)) ∧ (∀ w, tr.Mem w → tf.Mem w ∨ tg.Mem w) ∧ T tf tg tr := by
  obtain ⟨f', g', tf', tg', tr, e1, e2, h1, h2, h3, h4⟩ := he r rfl
  cases e1; cases e2
  cases hf.fn h1
  cases hg.fn h2
  refine ⟨tr, h3, ?_⟩
  simp only at h4
  rcases h with ⟨rfl, rfl, rfl⟩ | ⟨rfl, rfl, rfl⟩
  · rcases h4 with h4 | h4 | ⟨q, tq, hq, _⟩
    · exact h4.2
    · exact absurd h4.1 (by decide)
    · have := cfg.addr_big q; unfold andTag at hq; omega
  · rcases h4 with h4 | h4 | ⟨q, tq, hq, _⟩
    · exact absurd h4.1 (by decide)
    · exact h4.2
    · have := cfg.addr_big q; unfold orTag at hq; omega

theorem lowIf_ok {c : Bool} {p : Nat} {t : Tree} (h : Repr s.cells p t) (hc : c = true → 2 ≤ p) :
    ∃ q, lowIf c p s = .ok q s ∧ Repr s.cells q (cof c false t) := by
  cases c with
  | false =>
    refine ⟨p, rfl, ?_⟩
    cases t <;> simpa [cof] using h
  | true =>
    obtain ⟨tl, th, rfl, _, _, h3, h4⟩ := h.inv (hc rfl)
    exact ⟨_, lowOf_ok h (hc rfl), by simpa [cof] using h3⟩

theorem highIf_ok {c : Bool} {p : Nat} {t : Tree} (h : Repr s.cells p t) (hc : c = true → 2 ≤ p) :
    ∃ q, highIf c p s = .ok q s ∧ Repr s.cells q (cof c true t) := by
  cases c with
  | false =>
    refine ⟨p, rfl, ?_⟩
    cases t <;> simpa [cof] using h
  | true =>
    obtain ⟨tl, th, rfl, _, _, h3, h4⟩ := h.inv (hc rfl)
    exact ⟨_, highOf_ok h (hc rfl), by simpa [cof] using h4⟩

theorem cof_mem {c b : Bool} {t : Tree} {w : Nat} (h : (cof c b t).Mem w) : t.Mem w := by
  cases t with
  | bot => simpa [cof] using h
  | top => simpa [cof] using h
  | node v l hh => cases c <;> cases b <;> simp [cof, Tree.Mem] at * <;> simp [h]

/-- Value of a node through its cofactor, when the tested variable is the root variable. -/
theorem cof_eval {v : Nat} {c : Bool} {v' : Nat} {l h : Tree} (hc : c = true → v = v') (x : Assign) :
    (cof c (x v) (.node v' l h)).eval x = (Tree.node v' l h).eval x := by
  cases c with
  | false => simp [cof]
  | true =>
    have := hc rfl; subst this
    cases hx : x v <;> simp [cof, Tree.eval, hx]

theorem cof_lt {c b : Bool} {v v' : Nat} {l h : Tree} (ho : (Tree.node v' l h).Ordered) (hc : c = true ↔ v = v') (hv : v ≤ v')
    {w : Nat} (hw : (cof c b (.node v' l h)).Mem w) : v < w := by
  cases c with
  | true =>
    have := hc.1 rfl; subst this
    cases b <;> simp [cof] at hw
    · exact ho.1 w hw
    · exact ho.2.1 w hw
  | false =>
    have hne : v ≠ v' := fun e => by have := hc.2 e; cases this
    simp [cof, Tree.Mem] at hw
    rcases hw with rfl | hw | hw
    · omega
    · have := ho.1 w hw; omega
    · have := ho.2.1 w hw; omega

/-- A bound `N` on the number of splits a recursion over `ts` makes: the sum of the heights or, when all trees are ordered, the number of
variables from the smallest one on. -/
def Fits (md : Md) (nv N : Nat) (ts : List Tree) : Prop :=
  (ts.map Tree.height).sum ≤ N ∨ (md.ordered ∧ ∃ k, nv - k ≤ N ∧ ∀ t ∈ ts, ∀ w, t.Mem w → k ≤ w)

theorem Fits.perm {md : Md} {nv N : Nat} {a b : Tree} (h : Fits md nv N [a, b]) : Fits md nv N [b, a] := by
  rcases h with h | ⟨ho, k, hk, hm⟩
  · exact Or.inl (by simp at h ⊢; omega)
  · exact Or.inr ⟨ho, k, hk, fun t ht => hm t (by simp at ht ⊢; exact ht.symm)⟩

/-- One split uses up one unit. -/
theorem Fits.split {md : Md} {nv N v : Nat} {ts ts' : List Tree} (h : Fits md nv N ts)
    (hh : (ts'.map Tree.height).sum < (ts.map Tree.height).sum)
    (hv : v < nv) (hm : ∃ t ∈ ts, t.Mem v) (ho : md.ordered → ∀ t ∈ ts', ∀ w, t.Mem w → v < w) : 0 < N ∧ Fits md nv (N - 1) ts' := by
  rcases h with h | ⟨hmd, k, hk, hm'⟩
  · exact ⟨by omega, Or.inl (by omega)⟩
  · obtain ⟨t, ht, hw⟩ := hm
    have := hm' t ht v hw
    exact ⟨by omega, Or.inr ⟨hmd, v + 1, by omega, fun t ht w hw => ho hmd t ht w hw⟩⟩

/-- The common tail of the binary operations. -/
theorem meld_ok {tag : Nat} {R : Bool → Bool → Bool → Prop} {T : Tree → Tree → Tree → Prop} (hR : TagR md tag R T) {pick : Nat → Nat → Nat} (hT : RelStep pick T)
    (hpick : ∀ a b, pick a b = a ∨ pick a b = b)
    (hmin : md.ordered → ∀ a b, pick a b ≤ a ∧ pick a b ≤ b)
    {rec : Nat → Nat → M Mgr Nat} {f g : Nat} {tf tg : Tree} (hi : Inv cfg md refs s)
    (hf : Repr s.cells f tf) (hg : Repr s.cells g tg) (f2 : 2 ≤ f) (g2 : 2 ≤ g) (hfg : f ≠ g)
    (hrec : ∀ s' f' g' tf' tg', Inv cfg md refs s' → Repr s'.cells f' tf' → Repr s'.cells g' tg' →
      (∀ N, Fits md s.nvars N [tf, tg] → 0 < N ∧ Fits md s'.nvars (N - 1) [tf', tg']) →
      Spec cfg md refs (rec f' g') s' (Post2T R T tf' tg' s')) :
    Spec cfg md refs (meld cfg tag pick rec f g) s (Post2T R T tf tg s) := by
  unfold meld
  obtain ⟨o, ho1, ho2⟩ := cacheLookup_ok hi f g tag
  refine Spec.read_bind ho1 ?_
  cases o with
  | some r =>
    simp only
    obtain ⟨tr, h1, h2, h3, h4⟩ := hR.of_entry hf hg (ho2 r rfl)
    exact Spec.pure hi ⟨tr, h1, h2, h3, h4, .refl⟩
  | none =>
    simp only
    refine Spec.read_bind (varOf_ok hi hf f2) ?_
    refine Spec.read_bind (varOf_ok hi hg g2) ?_
    obtain ⟨fl, fh, htf, fl1, _, _, _⟩ := hf.inv f2
    obtain ⟨gl, gh, htg, gl1, _, _, _⟩ := hg.inv g2
    have hfv := (hi.node f f2 fl1).1
    have hgv := (hi.node g g2 gl1).1
    have hp := hpick (s.cells f).index (s.cells g).index
    have hm := fun h => hmin h (s.cells f).index (s.cells g).index
    have hidf : (s.cells f).index = (s.cells f).index := rfl
    have hne : tf ≠ tg := fun e => hfg (hi.repr_inj (e ▸ hf) hg)
    generalize hvf : (s.cells f).index = vf at *
    generalize hvg : (s.cells g).index = vg at *
    generalize hvv : pick vf vg = v at *
    have hvn : v < s.nvars := by rcases hp with h | h <;> omega
    have hlt0 : ∀ b, (cof (v == vf) b tf).height + (cof (v == vg) b tg).height < tf.height + tg.height := by
      intro b
      have a1 := cof_height_le (v == vf) b tf
      have a2 := cof_height_le (v == vg) b tg
      rcases hp with h | h
      · have : (v == vf) = true := by simp [h]
        rw [this] at a1 ⊢
        have := cof_height_lt (b := b) (v := vf) (l := fl) (h := fh)
        rw [← htf] at this
        omega
      · have : (v == vg) = true := by simp [h]
        rw [this] at a2 ⊢
        have := cof_height_lt (b := b) (v := vg) (l := gl) (h := gh)
        rw [← htg] at this
        omega
    have hfit : ∀ b N, Fits md s.nvars N [tf, tg] → 0 < N ∧ Fits md s.nvars (N - 1) [cof (v == vf) b tf, cof (v == vg) b tg] := by
      intro b N hN
      refine hN.split (v := v) (by have := hlt0 b; simp; omega) hvn ?_ ?_
      · rcases hp with h | h
        · exact ⟨tf, by simp, by rw [htf]; exact Or.inl h⟩
        · exact ⟨tg, by simp, by rw [htg]; exact Or.inl h⟩
      · intro hmd t ht w hw
        have of_ := hi.ord hmd _ _ hf
        have og_ := hi.ord hmd _ _ hg
        have hle := hm hmd
        rw [htf] at of_
        rw [htg] at og_
        simp only [List.mem_cons, List.not_mem_nil, or_false] at ht
        rcases ht with rfl | rfl
        · rw [htf] at hw; exact cof_lt of_ (by simp) hle.1 hw
        · rw [htg] at hw; exact cof_lt og_ (by simp) hle.2 hw
    obtain ⟨f0, e1, hf0⟩ := lowIf_ok (c := v == vf) hf (fun _ => f2)
    refine Spec.read_bind e1 ?_
    obtain ⟨g0, e2, hg0⟩ := lowIf_ok (c := v == vg) hg (fun _ => g2)
    refine Spec.read_bind e2 ?_
    refine Spec.bind (hrec s f0 g0 _ _ hi hf0 hg0 (hfit false)) ?_
    rintro r0 s1 x1 hi1 ⟨t0, hr0, ht0, hv0, k0, n0⟩
    obtain ⟨f1, e3, hf1⟩ := highIf_ok (c := v == vf) (hf.ext x1.cells) (fun _ => f2)
    refine Spec.read_bind e3 ?_
    obtain ⟨g1, e4, hg1⟩ := highIf_ok (c := v == vg) (hg.ext x1.cells) (fun _ => g2)
    refine Spec.read_bind e4 ?_
    refine Spec.bind (hrec s1 f1 g1 _ _ hi1 hf1 hg1 (by rw [x1.nvars]; exact hfit true)) ?_
    rintro r1 s2 x2 hi2 ⟨t1, hr1, ht1, hv1, k1, n1⟩
    have hr0' := hr0.ext x2.cells
    have hord : md.ordered → ∀ w, t0.Mem w ∨ t1.Mem w → v < w := by
      intro hmd w hw
      have of_ := hi.ord hmd _ _ hf
      have og_ := hi.ord hmd _ _ hg
      have hle := hm hmd
      rw [htf] at of_
      rw [htg] at og_
      rcases hw with hw | hw
      · rcases hv0 w hw with h | h
        · rw [htf] at h; exact cof_lt of_ (by simp) hle.1 h
        · rw [htg] at h; exact cof_lt og_ (by simp) hle.2 h
      · rcases hv1 w hw with h | h
        · rw [htf] at h; exact cof_lt of_ (by simp) hle.1 h
        · rw [htg] at h; exact cof_lt og_ (by simp) hle.2 h
    refine Spec.bind (uniqueFind_spec hi2 (by rw [x2.nvars, x1.nvars]; exact hvn) hr0' hr1 hord) ?_
    rintro r s3 x3 hi3 ⟨hr, n3⟩
    have heval : ∀ x, R (tf.eval x) (tg.eval x) ((mkTree v t0 t1).eval x) := by
      intro x
      rw [mkTree_eval]
      have cf := cof_eval (v := v) (c := v == vf) (v' := vf) (l := fl) (h := fh) (by simp) x
      have cg := cof_eval (v := v) (c := v == vg) (v' := vg) (l := gl) (h := gh) (by simp) x
      rw [← htf] at cf
      rw [← htg] at cg
      rw [← cf, ← cg]
      cases hx : x v
      · simpa using ht0 x
      · simpa using ht1 x
    have hvars : ∀ w, (mkTree v t0 t1).Mem w → tf.Mem w ∨ tg.Mem w := by
      intro w hw
      rcases mkTree_mem hw with rfl | hw | hw
      · rcases hp with h | h
        · left; rw [htf]; exact Or.inl h
        · right; rw [htg]; exact Or.inl h
      · rcases hv0 w hw with h | h
        · exact Or.inl (cof_mem h)
        · exact Or.inr (cof_mem h)
      · rcases hv1 w hw with h | h
        · exact Or.inl (cof_mem h)
        · exact Or.inr (cof_mem h)
    have x123 := (x1.trans x2).trans x3
    have hrel : T tf tg (mkTree v t0 t1) := by
      rw [htf, htg] at k0 k1 hne ⊢
      rw [← hvv] at k0 k1 ⊢
      exact hT vf vg fl fh gl gh t0 t1 hne k0 k1
    refine Spec.bind (cacheInsert_ok hi3 (hR.entry (hf.ext x123.cells) (hg.ext x123.cells) hr heval hvars hrel)) ?_
    intro _ s4 x4 hi4 e4
    refine Spec.pure hi4 ⟨_, hr.ext x4.cells, heval, hvars, hrel, ?_⟩
    obtain ⟨c0, c1⟩ := hi3.mk_reaches hr (hr0'.ext x3.cells) (hr1.ext x3.cells)
    refine New.cells ?_ e4
    exact New.seq3 n0 x2.cells n1 x3.cells n3 c0 c1

theorem Post2T.symm {R : Bool → Bool → Bool → Prop} {T : Tree → Tree → Tree → Prop} (hR : ∀ a b c, R a b c → R b a c)
    (hT : ∀ a b c, T a b c → T b a c) {tf tg : Tree} {r : Nat} {s s' : Mgr}
    (h : Post2T R T tf tg s r s') : Post2T R T tg tf s r s' := by
  obtain ⟨tr, h1, h2, h3, h4, h5⟩ := h
  exact ⟨tr, h1, fun x => hR _ _ _ (h2 x), fun w hw => (h3 w hw).symm, hT _ _ _ h4, h5⟩

theorem two_le_of {p : Nat} (h0 : ¬ p = botId) (h1 : ¬ p = topId) : 2 ≤ p := by
  unfold botId at h0; unfold topId at h1; omega

theorem andRec_ok : ∀ (n N f g : Nat) (tf tg : Tree) (s : Mgr), Inv cfg md refs s → Repr s.cells f tf → Repr s.cells g tg →
    Fits md s.nvars N [tf, tg] → 2 * N + 1 + (if cfg.addr g < cfg.addr f then 1 else 0) ≤ n →
    Spec cfg md refs (andRec cfg n f g) s (Post2T (fun a b c => c = (a && b)) (fun f g r => r = tAnd f g) tf tg s) := by
  intro n
  induction n with
  | zero => intro N f g tf tg s _ _ _ _ hn; omega
  | succ n ih =>
    intro N f g tf tg s hi hf hg hN hn
    unfold andRec
    split
    · rename_i e; subst e
      cases hf.fn hg
      exact Spec.pure hi ⟨tf, hf, fun x => by simp, fun w hw => Or.inl hw, (tAnd_same _).symm, .refl⟩
    · split
      · rename_i hlt
        rw [if_pos hlt] at hn
        refine (ih N g f tg tf s hi hg hf hN.perm ?_).mono ?_
        · rw [if_neg (by omega)]; omega
        · intro r s' _ _ h
          exact h.symm (fun a b c h => by rw [h, Bool.and_comm]) (fun a b c h => by rw [h, tAnd_comm])
      · split
        · rename_i e; subst e
          cases Repr.top_iff.1 hf
          exact Spec.pure hi ⟨tg, hg, fun x => by simp [Tree.eval], fun w hw => Or.inr hw, (tAnd_top _).symm, .refl⟩
        split
        · rename_i e; subst e
          cases Repr.bot_iff.1 hf
          exact Spec.pure hi ⟨.bot, .bot, fun x => by simp [Tree.eval], fun w hw => hw.elim, (tAnd_bot _).symm, .refl⟩
        split
        · rename_i e; subst e
          cases Repr.top_iff.1 hg
          exact Spec.pure hi ⟨tf, hf, fun x => by simp [Tree.eval], fun w hw => Or.inl hw, by show _ = tAnd _ _; rw [tAnd_comm, tAnd_top], .refl⟩
        split
        · rename_i e; subst e
          cases Repr.bot_iff.1 hg
          exact Spec.pure hi ⟨.bot, .bot, fun x => by simp [Tree.eval], fun w hw => hw.elim, by show _ = tAnd _ _; rw [tAnd_comm, tAnd_bot], .refl⟩
        rename_i hfg _ f1 f0 g1 g0
        refine meld_ok (Or.inl ⟨rfl, rfl, rfl⟩) tAnd_step pickMin_or (fun _ => pickMin_le) hi hf hg (two_le_of f0 f1) (two_le_of g0 g1) hfg ?_
        intro s' f' g' tf' tg' hi' hf' hg' hlt
        obtain ⟨h0, hN'⟩ := hlt N hN
        refine ih (N - 1) f' g' tf' tg' s' hi' hf' hg' hN' ?_
        have : (if cfg.addr g' < cfg.addr f' then 1 else 0) ≤ 1 := by split <;> omega
        omega

/-- What `or_rec` needs of the relation stored under its tag. -/
structure SemOr (md : Md) : Prop where
  symm : ∀ a b c, md.sem a b c → md.sem b a c
  same : ∀ a, md.sem a a a
  top : ∀ b, md.sem true b true
  bot : ∀ b, md.sem false b b
  rsymm : ∀ a b c, md.rel a b c → md.rel b a c
  rsame : ∀ a, md.rel a a a
  rtop : ∀ b, md.rel .top b .top
  rbot : ∀ b, md.rel .bot b b
  rstep : RelStep pickMin md.rel

/-- What `xor_rec` needs of the relation stored under its tag. -/
structure SemXor (md : Md) : Prop where
  symm : ∀ a b c, md.sem a b c → md.sem b a c
  same : ∀ a, md.sem a a false
  top : ∀ b, md.sem true b (!b)
  bot : ∀ b, md.sem false b b
  rsymm : ∀ a b c, md.rel a b c → md.rel b a c
  rsame : ∀ a, md.rel a a .bot
  rtop : ∀ b, md.rel .top b (negTree b)
  rbot : ∀ b, md.rel .bot b b
  rstep : RelStep pickMax md.rel

theorem orRec_ok (hs : SemOr md) : ∀ (n N f g : Nat) (tf tg : Tree) (s : Mgr), Inv cfg md refs s → Repr s.cells f tf → Repr s.cells g tg →
    Fits md s.nvars N [tf, tg] → 2 * N + 1 + (if cfg.addr g < cfg.addr f then 1 else 0) ≤ n →
    Spec cfg md refs (orRec cfg n f g) s (Post2T md.sem md.rel tf tg s) := by
  intro n
  induction n with
  | zero => intro N f g tf tg s _ _ _ _ hn; omega
  | succ n ih =>
    intro N f g tf tg s hi hf hg hN hn
    unfold orRec
    split
    · rename_i e; subst e
      cases hf.fn hg
      exact Spec.pure hi ⟨tf, hf, fun x => hs.same _, fun w hw => Or.inl hw, hs.rsame _, .refl⟩
    · split
      · rename_i hlt
        rw [if_pos hlt] at hn
        refine (ih N g f tg tf s hi hg hf hN.perm ?_).mono ?_
        · rw [if_neg (by omega)]; omega
        · intro r s' _ _ h
          exact h.symm hs.symm hs.rsymm
      · split
        · rename_i e; subst e
          cases Repr.top_iff.1 hf
          exact Spec.pure hi ⟨.top, .top, fun x => hs.top _, fun w hw => hw.elim, hs.rtop _, .refl⟩
        split
        · rename_i e; subst e
          cases Repr.bot_iff.1 hf
          exact Spec.pure hi ⟨tg, hg, fun x => hs.bot _, fun w hw => Or.inr hw, hs.rbot _, .refl⟩
        split
        · rename_i e; subst e
          cases Repr.top_iff.1 hg
          exact Spec.pure hi ⟨.top, .top, fun x => hs.symm _ _ _ (hs.top _), fun w hw => hw.elim, hs.rsymm _ _ _ (hs.rtop _), .refl⟩
        split
        · rename_i e; subst e
          cases Repr.bot_iff.1 hg
          exact Spec.pure hi ⟨tf, hf, fun x => hs.symm _ _ _ (hs.bot _), fun w hw => Or.inl hw, hs.rsymm _ _ _ (hs.rbot _), .refl⟩
        rename_i hfg _ f1 f0 g1 g0
        refine meld_ok (Or.inr ⟨rfl, rfl, rfl⟩) hs.rstep pickMin_or (fun _ => pickMin_le) hi hf hg (two_le_of f0 f1) (two_le_of g0 g1) hfg ?_
        intro s' f' g' tf' tg' hi' hf' hg' hlt
        obtain ⟨h0, hN'⟩ := hlt N hN
        refine ih (N - 1) f' g' tf' tg' s' hi' hf' hg' hN' ?_
        have : (if cfg.addr g' < cfg.addr f' then 1 else 0) ≤ 1 := by split <;> omega
        omega

/-! ### negation -/

theorem negTree_eval (t : Tree) (x : Assign) : (negTree t).eval x = !(t.eval x) := by
  induction t with
  | bot => rfl
  | top => rfl
  | node v l h ihl ihh => simp only [negTree, Tree.eval]; split <;> assumption

theorem negTree_mem (t : Tree) (w : Nat) : (negTree t).Mem w ↔ t.Mem w := by
  induction t with
  | bot => exact Iff.rfl
  | top => exact Iff.rfl
  | node v l h ihl ihh => simp only [negTree, Tree.Mem, ihl, ihh]

theorem negTree_negTree (t : Tree) : negTree (negTree t) = t := by
  induction t with
  | bot => rfl
  | top => rfl
  | node v l h ihl ihh => simp only [negTree, ihl, ihh]

theorem negTree_inj {t t' : Tree} (h : negTree t = negTree t') : t = t' := by
  rw [← negTree_negTree t, h, negTree_negTree]

/-- New nodes after computing two results. -/
def New2 (s s' : Mgr) (a b : Nat) : Prop :=
  ∀ p, (s'.cells p).live = true → (s.cells p).live = true ∨ Reaches s'.cells a p ∨ Reaches s'.cells b p

theorem args2_ok {m1 m2 : M Mgr Nat} {Q1 Q2 : Nat → (Nat → Cell) → Prop}
    (st1 : ∀ a c c', CellsExt c c' → Q1 a c → Q1 a c') (st2 : ∀ a c c', CellsExt c c' → Q2 a c → Q2 a c')
    (hi : Inv cfg md refs s)
    (h1 : ∀ s', Ext s s' → Inv cfg md refs s' → Spec cfg md refs m1 s' (fun r s'' => Q1 r s''.cells ∧ New s' s'' r))
    (h2 : ∀ s', Ext s s' → Inv cfg md refs s' → Spec cfg md refs m2 s' (fun r s'' => Q2 r s''.cells ∧ New s' s'' r)) :
    Spec cfg md refs (args2 cfg m1 m2) s
      (fun r s' => Q1 r.1 s'.cells ∧ Q2 r.2 s'.cells ∧ New2 s s' r.1 r.2) := by
  unfold args2
  split
  · refine Spec.bind (h2 s (.refl _) hi) ?_
    rintro b s1 x1 hi1 ⟨q1, n1⟩
    refine Spec.bind (h1 s1 x1 hi1) ?_
    rintro a s2 x2 hi2 ⟨q2, n2⟩
    refine Spec.pure hi2 ⟨q2, st2 _ _ _ x2.cells q1, ?_⟩
    intro p hp
    rcases n2 p hp with h | h
    · rcases n1 p h with h | h
      · exact Or.inl h
      · exact Or.inr (Or.inr (h.ext x2.cells))
    · exact Or.inr (Or.inl h)
  · refine Spec.bind (h1 s (.refl _) hi) ?_
    rintro b s1 x1 hi1 ⟨q1, n1⟩
    refine Spec.bind (h2 s1 x1 hi1) ?_
    rintro a s2 x2 hi2 ⟨q2, n2⟩
    refine Spec.pure hi2 ⟨st1 _ _ _ x2.cells q1, q2, ?_⟩
    intro p hp
    rcases n2 p hp with h | h
    · rcases n1 p h with h | h
      · exact Or.inl h
      · exact Or.inr (Or.inl (h.ext x2.cells))
    · exact Or.inr (Or.inr h)

theorem New2.mk {s s1 s2 : Mgr} {a b r : Nat} (h : New2 s s1 a b) (hx : CellsExt s1.cells s2.cells) (hn : New s1 s2 r)
    (e0 : Reaches s2.cells r a) (e1 : Reaches s2.cells r b) : New s s2 r := by
  intro p hp
  rcases hn p hp with h' | h'
  · rcases h p h' with h' | h' | h'
    · exact Or.inl h'
    · exact Or.inr (e0.trans (h'.ext hx))
    · exact Or.inr (e1.trans (h'.ext hx))
  · exact Or.inr h'

theorem negateRec_ok : ∀ (n p : Nat) (t : Tree) (s : Mgr), Inv cfg md refs s → Repr s.cells p t → t.height + 1 ≤ n →
    Spec cfg md refs (negateRec cfg n p) s (fun r s' => Repr s'.cells r (negTree t) ∧ New s s' r) := by
  intro n
  induction n with
  | zero => intro p t s _ _ h; omega
  | succ n ih =>
    intro p t s hi hp hn
    simp only [negateRec]
    refine Spec.read_bind (isBot_ok hi hp) ?_
    by_cases h0 : p = 0
    · subst h0
      cases Repr.bot_iff.1 hp
      exact Spec.pure hi ⟨.top, .refl⟩
    rw [if_neg (by simpa using h0)]
    refine Spec.read_bind (isTop_ok hi hp) ?_
    by_cases h1 : p = 1
    · subst h1
      cases Repr.top_iff.1 hp
      exact Spec.pure hi ⟨.bot, .refl⟩
    rw [if_neg (by simpa using h1)]
    have h2 : 2 ≤ p := by omega
    obtain ⟨tl, th, ht, hl, _, hlo, hhi⟩ := hp.inv h2
    have hv := (hi.node p h2 hl).1
    refine Spec.get_bind ?_
    refine Spec.assert_bind (by simpa using hv) ?_
    have hht : tl.height + 1 ≤ n ∧ th.height + 1 ≤ n := by
      rw [ht] at hn; simp only [Tree.height] at hn; omega
    refine Spec.bind (args2_ok (Q1 := fun r c => Repr c r (negTree tl)) (Q2 := fun r c => Repr c r (negTree th))
      (fun _ _ _ h r => r.ext h) (fun _ _ _ h r => r.ext h) hi ?_ ?_) ?_
    · intro s1 x1 hi1
      obtain ⟨e0, e1, e2, e3, _⟩ := x1.cells p hl
      refine Spec.read_bind (lowOf_ok (hp.ext x1.cells) h2) ?_
      rw [e1]
      exact ih _ tl s1 hi1 (hlo.ext x1.cells) hht.1
    · intro s1 x1 hi1
      obtain ⟨e0, e1, e2, e3, _⟩ := x1.cells p hl
      refine Spec.read_bind (highOf_ok (hp.ext x1.cells) h2) ?_
      rw [e2]
      exact ih _ th s1 hi1 (hhi.ext x1.cells) hht.2
    rintro ⟨l', h'⟩ s2 x2 hi2 ⟨hl', hh', n2⟩
    have hne : tl ≠ th := by
      have := hi.reduced hp; rw [ht] at this; exact this.1
    have hmk : mkTree (s.cells p).index (negTree tl) (negTree th) = negTree t := by
      rw [ht]
      unfold mkTree
      rw [if_neg (fun h => hne (negTree_inj h))]
      rfl
    refine (uniqueFind_spec hi2 (by rw [x2.nvars]; exact hv) hl' hh' ?_).mono ?_
    · intro hmd w hw
      have ho := hi.ord hmd _ _ hp
      rw [ht] at ho
      rw [negTree_mem, negTree_mem] at hw
      rcases hw with hw | hw
      · exact ho.1 w hw
      · exact ho.2.1 w hw
    · rintro r s' y3 hi3 ⟨h, n3⟩
      have x3 := y3.cells
      obtain ⟨c0, c1⟩ := hi3.mk_reaches h (hl'.ext x3) (hh'.ext x3)
      exact ⟨hmk ▸ h, n2.mk x3 n3 c0 c1⟩

theorem negateOp_tree {p : Nat} {t : Tree} (hi : Inv cfg md refs s) (hp : Repr s.cells p t) :
    Spec cfg md refs (negateOp cfg p) s (fun r s' => Repr s'.cells r (negTree t) ∧ New s s' r) := by
  unfold negateOp
  refine Spec.get_bind ?_
  refine negateRec_ok _ p t s hi hp ?_
  have := hi.ht _ _ hp
  unfold fuel1; omega

theorem xorRec_ok (hs : SemXor md) (hno : ¬ md.ordered) : ∀ (n N f g : Nat) (tf tg : Tree) (s : Mgr), Inv cfg md refs s → Repr s.cells f tf → Repr s.cells g tg →
    Fits md s.nvars N [tf, tg] → 2 * N + 1 + (if cfg.addr g < cfg.addr f then 1 else 0) ≤ n →
    Spec cfg md refs (xorRec cfg n f g) s (Post2T md.sem md.rel tf tg s) := by
  intro n
  induction n with
  | zero => intro N f g tf tg s _ _ _ _ hn; omega
  | succ n ih =>
    intro N f g tf tg s hi hf hg hN hn
    unfold xorRec
    split
    · rename_i e; subst e
      cases hf.fn hg
      exact Spec.pure hi ⟨.bot, .bot, fun x => hs.same _, fun w hw => hw.elim, hs.rsame _, .refl⟩
    · split
      · rename_i hlt
        rw [if_pos hlt] at hn
        refine (ih N g f tg tf s hi hg hf hN.perm ?_).mono ?_
        · rw [if_neg (by omega)]; omega
        · intro r s' _ _ h
          exact h.symm hs.symm hs.rsymm
      · split
        · rename_i e; subst e
          cases Repr.bot_iff.1 hf
          exact Spec.pure hi ⟨tg, hg, fun x => hs.bot _, fun w hw => Or.inr hw, hs.rbot _, .refl⟩
        split
        · rename_i e; subst e
          cases Repr.bot_iff.1 hg
          exact Spec.pure hi ⟨tf, hf, fun x => hs.symm _ _ _ (hs.bot _), fun w hw => Or.inl hw, hs.rsymm _ _ _ (hs.rbot _), .refl⟩
        split
        · rename_i e; subst e
          cases Repr.top_iff.1 hf
          refine (negateOp_tree hi hg).mono ?_
          rintro r s' _ _ ⟨h, hn⟩
          refine ⟨_, h, fun x => ?_, fun w hw => Or.inr ((negTree_mem _ _).1 hw), hs.rtop _, hn⟩
          rw [negTree_eval]; exact hs.top _
        split
        · rename_i e; subst e
          cases Repr.top_iff.1 hg
          refine (negateOp_tree hi hf).mono ?_
          rintro r s' _ _ ⟨h, hn⟩
          refine ⟨_, h, fun x => ?_, fun w hw => Or.inl ((negTree_mem _ _).1 hw), hs.rsymm _ _ _ (hs.rtop _), hn⟩
          rw [negTree_eval]; exact hs.symm _ _ _ (hs.top _)
        rename_i hfg _ f0 g0 f1 g1
        refine meld_ok (Or.inr ⟨rfl, rfl, rfl⟩) hs.rstep pickMax_or (fun h => (hno h).elim) hi hf hg (two_le_of f0 f1) (two_le_of g0 g1) hfg ?_
        intro s' f' g' tf' tg' hi' hf' hg' hlt
        obtain ⟨h0, hN'⟩ := hlt N hN
        refine ih (N - 1) f' g' tf' tg' s' hi' hf' hg' hN' ?_
        have : (if cfg.addr g' < cfg.addr f' then 1 else 0) ≤ 1 := by split <;> omega
        omega

/-! ### API entry points -/

theorem fuel2_ok {f g : Nat} {tf tg : Tree} (hi : Inv cfg md refs s) (hf : Repr s.cells f tf) (hg : Repr s.cells g tg) :
    Fits md s.nvars (tf.height + tg.height) [tf, tg] ∧ 2 * (tf.height + tg.height) + 1 + (if cfg.addr g < cfg.addr f then 1 else 0) ≤ fuel2 s := by
  refine ⟨Or.inl (by simp), ?_⟩
  have := hi.ht _ _ hf
  have := hi.ht _ _ hg
  have : (if cfg.addr g < cfg.addr f then 1 else 0) ≤ 1 := by split <;> omega
  unfold fuel2; omega

theorem andOp_okT {f g : Nat} {tf tg : Tree} (hi : Inv cfg md refs s) (hf : Repr s.cells f tf) (hg : Repr s.cells g tg) :
    Spec cfg md refs (andOp cfg f g) s (Post2T (fun a b c => c = (a && b)) (fun f g r => r = tAnd f g) tf tg s) := by
  unfold andOp
  exact Spec.get_bind (andRec_ok _ _ f g tf tg s hi hf hg (fuel2_ok hi hf hg).1 (fuel2_ok hi hf hg).2)

theorem andOp_ok {f g : Nat} {tf tg : Tree} (hi : Inv cfg md refs s) (hf : Repr s.cells f tf) (hg : Repr s.cells g tg) :
    Spec cfg md refs (andOp cfg f g) s (Post2 (fun a b c => c = (a && b)) tf tg s) :=
  (andOp_okT hi hf hg).mono fun _ _ _ _ h => h.post

/-- `and_rec` returns the tree of the conjunction, whatever the history. -/
theorem andOp_tree {f g : Nat} {tf tg : Tree} (hi : Inv cfg md refs s) (hf : Repr s.cells f tf) (hg : Repr s.cells g tg) :
    Spec cfg md refs (andOp cfg f g) s (fun r s' => Repr s'.cells r (tAnd tf tg) ∧ New s s' r) :=
  (andOp_okT hi hf hg).mono fun _ _ _ _ ⟨_, h1, _, _, h4, h5⟩ => ⟨h4 ▸ h1, h5⟩

theorem orOp_okT (hs : SemOr md) {f g : Nat} {tf tg : Tree} (hi : Inv cfg md refs s) (hf : Repr s.cells f tf) (hg : Repr s.cells g tg) :
    Spec cfg md refs (orOp cfg f g) s (Post2T md.sem md.rel tf tg s) := by
  unfold orOp
  exact Spec.get_bind (orRec_ok hs _ _ f g tf tg s hi hf hg (fuel2_ok hi hf hg).1 (fuel2_ok hi hf hg).2)

theorem orOp_ok (hs : SemOr md) {f g : Nat} {tf tg : Tree} (hi : Inv cfg md refs s) (hf : Repr s.cells f tf) (hg : Repr s.cells g tg) :
    Spec cfg md refs (orOp cfg f g) s (Post2 md.sem tf tg s) :=
  (orOp_okT hs hi hf hg).mono fun _ _ _ _ h => h.post

theorem xorOp_okT (hs : SemXor md) (hno : ¬ md.ordered) {f g : Nat} {tf tg : Tree} (hi : Inv cfg md refs s)
    (hf : Repr s.cells f tf) (hg : Repr s.cells g tg) :
    Spec cfg md refs (xorOp cfg f g) s (Post2T md.sem md.rel tf tg s) := by
  unfold xorOp
  exact Spec.get_bind (xorRec_ok hs hno _ _ f g tf tg s hi hf hg (fuel2_ok hi hf hg).1 (fuel2_ok hi hf hg).2)

theorem xorOp_ok (hs : SemXor md) (hno : ¬ md.ordered) {f g : Nat} {tf tg : Tree} (hi : Inv cfg md refs s)
    (hf : Repr s.cells f tf) (hg : Repr s.cells g tg) :
    Spec cfg md refs (xorOp cfg f g) s (Post2 md.sem tf tg s) :=
  (xorOp_okT hs hno hi hf hg).mono fun _ _ _ _ h => h.post

/-- `xor_rec` with a sink operand is a negation (this is how `ite_rec` uses it). -/
theorem xorTop_ok {f : Nat} {tf : Tree} (hi : Inv cfg md refs s) (hf : Repr s.cells f tf) (f2 : 2 ≤ f) :
    Spec cfg md refs (xorOp cfg topId f) s (fun r s' => Repr s'.cells r (negTree tf) ∧ New s s' r) := by
  unfold xorOp fuel2
  refine Spec.get_bind ?_
  have h1 : f ≠ topId := by unfold topId; omega
  have h0 : f ≠ botId := by unfold botId; omega
  have step : ∀ n, Spec cfg md refs (xorRec cfg (n + 1) topId f) s (fun r s' => Repr s'.cells r (negTree tf) ∧ New s s' r) ∨
      cfg.addr f < cfg.addr topId := by
    intro n
    by_cases hlt : cfg.addr f < cfg.addr topId
    · exact Or.inr hlt
    · left
      unfold xorRec
      rw [if_neg h1.symm, if_neg hlt, if_neg (by decide), if_neg h0, if_pos rfl]
      exact negateOp_tree hi hf
  rcases step (4 * s.rngPos + 3) with h | h
  · exact h
  · unfold xorRec
    rw [if_neg h1.symm, if_pos h]
    unfold xorRec
    rw [if_neg h1, if_neg (by omega), if_neg h0, if_neg (by decide), if_neg h1, if_pos rfl]
    exact negateOp_tree hi hf

end
end LBDD
