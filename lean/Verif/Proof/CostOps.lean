import Verif.Proof.CostMemo
import Verif.Proof.Limited
/-! Numbers of calls of `and_rec`, `or_rec` and `xor_rec`. -/
namespace LBDD

theorem Counts.ticks {σ β : Type} {n : Nat} {fk : Unit → MK σ β} {f : M σ β} (h : Counts (fk ()) f) : Counts (MK.ticks n >>= fk) f := fun s => h s
theorem calls_ticks {σ β : Type} {n : Nat} {fk : Unit → MK σ β} {s : σ} : (MK.ticks n >>= fk).calls s = n + (fk ()).calls s :=
  calls_bind (mk := MK.ticks n) rfl

section
variable {cfg : Cfg} {md : Md} {refs : Nat → Nat} {s : Mgr}

theorem cacheInsertK_counts (we f g h r : Nat) : Counts (cacheInsertK cfg we f g h r) (cacheInsert cfg f g h r) := by
  intro s
  rfl

theorem meldK_counts {we tag : Nat} {pick : Nat → Nat → Nat} {rK : Nat → Nat → MK Mgr Nat} {rec : Nat → Nat → M Mgr Nat} (h : ∀ f g, Counts (rK f g) (rec f g)) (f g : Nat) :
    Counts (meldK cfg we tag pick rK f g) (meld cfg tag pick rec f g) := by
  unfold meldK meld
  refine .bind (.of _) fun o => ?_
  cases o with
  | some m => exact .pure _
  | none =>
    exact .bind (.of _) fun _ => .bind (.of _) fun _ => .bind (.of _) fun _ => .bind (.of _) fun _ => .bind (h _ _) fun _ => .bind (.of _) fun _ =>
      .bind (.of _) fun _ => .bind (h _ _) fun _ => .bind (.of _) fun _ => .bind (cacheInsertK_counts _ _ _ _ _) fun _ => .pure _

theorem andRecK_counts (wc we : Nat) : ∀ n f g, Counts (andRecK cfg wc we n f g) (andRec cfg n f g)
  | 0, _, _ => .of _
  | n + 1, f, g => by
    unfold andRecK andRec
    exact .ticks (.ite (.pure _) (.ite (andRecK_counts wc we n _ _) (.ite (.pure _) (.ite (.pure _) (.ite (.pure _) (.ite (.pure _)
      (meldK_counts (andRecK_counts wc we n) f g)))))))

theorem orRecK_counts (wc we : Nat) : ∀ n f g, Counts (orRecK cfg wc we n f g) (orRec cfg n f g)
  | 0, _, _ => .of _
  | n + 1, f, g => by
    unfold orRecK orRec
    exact .ticks (.ite (.pure _) (.ite (orRecK_counts wc we n _ _) (.ite (.pure _) (.ite (.pure _) (.ite (.pure _) (.ite (.pure _)
      (meldK_counts (orRecK_counts wc we n) f g)))))))

theorem xorRecK_counts (wc we : Nat) : ∀ n f g, Counts (xorRecK cfg wc we n f g) (xorRec cfg n f g)
  | 0, _, _ => .of _
  | n + 1, f, g => by
    unfold xorRecK xorRec
    exact .ticks (.ite (.pure _) (.ite (xorRecK_counts wc we n _ _) (.ite (.pure _) (.ite (.pure _) (.ite (.of _) (.ite (.of _)
      (meldK_counts (xorRecK_counts wc we n) f g)))))))

theorem andOpK_counts (wc we f g : Nat) : Counts (andOpK cfg wc we f g) (andOp cfg f g) := .bind (.of _) fun _ => andRecK_counts wc we _ f g
theorem orOpK_counts (wc we f g : Nat) : Counts (orOpK cfg wc we f g) (orOp cfg f g) := .bind (.of _) fun _ => orRecK_counts wc we _ f g
theorem xorOpK_counts (wc we f g : Nat) : Counts (xorOpK cfg wc we f g) (xorOp cfg f g) := .bind (.of _) fun _ => xorRecK_counts wc we _ f g

theorem Spec.ok_of {α : Type} {m : M Mgr α} {P : α → Mgr → Prop} (h : Spec cfg md refs m s P) {a : α} {s' : Mgr} (e : m s = .ok a s') :
    Ext s s' ∧ Inv cfg md refs s' ∧ P a s' := by
  unfold Spec M.Sat at h
  rw [e] at h
  exact h

theorem lowIf_val {c : Bool} {p : Nat} {t : Tree} (h : Repr s.cells p t) (h2 : 2 ≤ p) :
    lowIf c p s = .ok (if c then (s.cells p).lo else p) s ∧ Repr s.cells (if c then (s.cells p).lo else p) (cof c false t) := by
  obtain ⟨q, e, hq⟩ := lowIf_ok (c := c) h fun _ => h2
  have : q = if c then (s.cells p).lo else p := by
    cases c
    · cases e; rfl
    · have e' : lowOf p s = .ok q s := e
      rw [lowOf_ok h h2] at e'
      cases e'; rfl
  subst this
  exact ⟨e, hq⟩

theorem highIf_val {c : Bool} {p : Nat} {t : Tree} (h : Repr s.cells p t) (h2 : 2 ≤ p) :
    highIf c p s = .ok (if c then (s.cells p).hi else p) s ∧ Repr s.cells (if c then (s.cells p).hi else p) (cof c true t) := by
  obtain ⟨q, e, hq⟩ := highIf_ok (c := c) h fun _ => h2
  have : q = if c then (s.cells p).hi else p := by
    cases c
    · cases e; rfl
    · have e' : highOf p s = .ok q s := e
      rw [highOf_ok h h2] at e'
      cases e'; rfl
  subst this
  exact ⟨e, hq⟩

/-- A miss of `meld`: the two recursive calls, the node, the insertion. -/
structure MeldMiss (cfg : Cfg) (md : Md) (refs : Nat → Nat) (tag : Nat) (pick : Nat → Nat → Nat) (rK : Nat → Nat → Nat → Nat → MK Mgr Nat)
    (rec : Nat → Nat → M Mgr Nat) (f g : Nat) (tf tg : Tree) (s s' : Mgr) : Prop where
  ex : ∃ (v f0 g0 f1 g1 r0 r1 r : Nat) (tf0 tg0 tf1 tg1 : Tree) (s1 s2 s3 : Mgr),
    s.memo.find s.cells f g tag = none ∧
    (f0 = f ∨ f0 = (s.cells f).lo) ∧ (g0 = g ∨ g0 = (s.cells g).lo) ∧ (f1 = f ∨ f1 = (s.cells f).hi) ∧ (g1 = g ∨ g1 = (s.cells g).hi) ∧
    Repr s.cells f0 tf0 ∧ Repr s.cells g0 tg0 ∧ Repr s.cells f1 tf1 ∧ Repr s.cells g1 tg1 ∧
    tf0.height + tg0.height < tf.height + tg.height ∧ tf1.height + tg1.height < tf.height + tg.height ∧
    (∀ N, Fits md s.nvars N [tf, tg] → 0 < N ∧ Fits md s.nvars (N - 1) [tf0, tg0] ∧ Fits md s.nvars (N - 1) [tf1, tg1]) ∧
    rec f0 g0 s = .ok r0 s1 ∧ rec f1 g1 s1 = .ok r1 s2 ∧ uniqueFind cfg v r0 r1 s2 = .ok r s3 ∧ cacheInsert cfg f g tag r s3 = .ok () s' ∧
    Ext s s1 ∧ Ext s1 s2 ∧ Ext s2 s3 ∧ Ext s3 s' ∧ Inv cfg md refs s1 ∧ Inv cfg md refs s2 ∧ Inv cfg md refs s3 ∧ Inv cfg md refs s' ∧
    ∀ wc we, (meldK cfg we tag pick (rK wc we) f g).calls s = (rK wc we f0 g0).calls s + (rK wc we f1 g1).calls s1 + we * evicted s3 f g tag

theorem meldK_split {tag : Nat} {R : Bool → Bool → Bool → Prop} {T : Tree → Tree → Tree → Prop} (hR : TagR md tag R T) {pick : Nat → Nat → Nat} (hT : RelStep pick T)
    (hpick : ∀ a b, pick a b = a ∨ pick a b = b)
    (hmin : md.ordered → ∀ a b, pick a b ≤ a ∧ pick a b ≤ b)
    {rK : Nat → Nat → Nat → Nat → MK Mgr Nat} {rec : Nat → Nat → M Mgr Nat} (hc : ∀ wc we f g, Counts (rK wc we f g) (rec f g))
    {f g : Nat} {tf tg : Tree} (hi : Inv cfg md refs s)
    (hf : Repr s.cells f tf) (hg : Repr s.cells g tg) (f2 : 2 ≤ f) (g2 : 2 ≤ g) (hfg : f ≠ g)
    (hrec : ∀ s' f' g' tf' tg', Inv cfg md refs s' → Repr s'.cells f' tf' → Repr s'.cells g' tg' →
      (∀ N, Fits md s.nvars N [tf, tg] → 0 < N ∧ Fits md s'.nvars (N - 1) [tf', tg']) →
      Spec cfg md refs (rec f' g') s' (Post2T R T tf' tg' s'))
    {p : Nat} {s' : Mgr} (e : meld cfg tag pick rec f g s = .ok p s') :
    (s' = s ∧ ∀ wc we, (meldK cfg we tag pick (rK wc we) f g).calls s = 0) ∨ MeldMiss cfg md refs tag pick rK rec f g tf tg s s' := by
  unfold meld at e
  have hlk := hi.lookup_find f g tag
  rw [M.bind_ok hlk] at e
  cases hfind : s.memo.find s.cells f g tag with
  | some r =>
    rw [hfind] at e hlk
    cases e
    left
    refine ⟨rfl, fun wc we => ?_⟩
    unfold meldK
    rw [calls_of_bind hlk]
    rfl
  | none =>
    rw [hfind] at e hlk
    right
    simp only at e
    rw [M.bind_ok (varOf_ok hi hf f2), M.bind_ok (varOf_ok hi hg g2)] at e
    obtain ⟨fl, fh, htf, fl1, _, _, _⟩ := hf.inv f2
    obtain ⟨gl, gh, htg, gl1, _, _, _⟩ := hg.inv g2
    have hfv := (hi.node f f2 fl1).1
    have hgv := (hi.node g g2 gl1).1
    have hp := hpick (s.cells f).index (s.cells g).index
    have hm := fun h => hmin h (s.cells f).index (s.cells g).index
    have hvn : pick (s.cells f).index (s.cells g).index < s.nvars := by rcases hp with h | h <;> omega
    generalize hvv : pick (s.cells f).index (s.cells g).index = v at *
    have hlt0 : ∀ b, (cof (v == (s.cells f).index) b tf).height + (cof (v == (s.cells g).index) b tg).height < tf.height + tg.height := by
      intro b
      have a1 := cof_height_le (v == (s.cells f).index) b tf
      have a2 := cof_height_le (v == (s.cells g).index) b tg
      rcases hp with h | h
      · have : (v == (s.cells f).index) = true := by simp [h]
        rw [this] at a1 ⊢
        have := cof_height_lt (b := b) (v := (s.cells f).index) (l := fl) (h := fh)
        rw [← htf] at this
        omega
      · have : (v == (s.cells g).index) = true := by simp [h]
        rw [this] at a2 ⊢
        have := cof_height_lt (b := b) (v := (s.cells g).index) (l := gl) (h := gh)
        rw [← htg] at this
        omega
    have hordc : ∀ b, md.ordered → ∀ t ∈ [cof (v == (s.cells f).index) b tf, cof (v == (s.cells g).index) b tg], ∀ w, t.Mem w → v < w := by
      intro b hmd t ht w hw
      have of_ := hi.ord hmd _ _ hf
      have og_ := hi.ord hmd _ _ hg
      have hle := hm hmd
      rw [htf] at of_
      rw [htg] at og_
      simp only [List.mem_cons, List.not_mem_nil, or_false] at ht
      rcases ht with rfl | rfl
      · rw [htf] at hw; exact cof_lt of_ (by simp) hle.1 hw
      · rw [htg] at hw; exact cof_lt og_ (by simp) hle.2 hw
    have hfit : ∀ b N, Fits md s.nvars N [tf, tg] → 0 < N ∧ Fits md s.nvars (N - 1) [cof (v == (s.cells f).index) b tf, cof (v == (s.cells g).index) b tg] := by
      intro b N hN
      refine hN.split (v := v) (by have := hlt0 b; simp; omega) hvn ?_ (hordc b)
      rcases hp with h | h
      · exact ⟨tf, by simp, by rw [htf]; exact Or.inl h⟩
      · exact ⟨tg, by simp, by rw [htg]; exact Or.inl h⟩
    obtain ⟨e1, hf0⟩ := lowIf_val (c := v == (s.cells f).index) hf f2
    obtain ⟨e2, hg0⟩ := lowIf_val (c := v == (s.cells g).index) hg g2
    rw [M.bind_ok e1, M.bind_ok e2] at e
    obtain ⟨r0, s1, e3, e⟩ := bind_ok_inv e
    obtain ⟨x1, hi1, t0, hr0, ht0, hv0, k0, n0⟩ := (hrec s _ _ _ _ hi hf0 hg0 (hfit false)).ok_of e3
    have cf := x1.cells f fl1
    have cg := x1.cells g gl1
    obtain ⟨e4, hf1⟩ := highIf_val (c := v == (s.cells f).index) (hf.ext x1.cells) f2
    obtain ⟨e5, hg1⟩ := highIf_val (c := v == (s.cells g).index) (hg.ext x1.cells) g2
    obtain ⟨_, hf1'⟩ := highIf_val (c := v == (s.cells f).index) hf f2
    obtain ⟨_, hg1'⟩ := highIf_val (c := v == (s.cells g).index) hg g2
    rw [M.bind_ok e4, M.bind_ok e5] at e
    rw [cf.2.2.1] at hf1 e4 e
    rw [cg.2.2.1] at hg1 e5 e
    obtain ⟨r1, s2, e6, e⟩ := bind_ok_inv e
    obtain ⟨x2, hi2, t1, hr1, ht1, hv1, k1, n1⟩ := (hrec s1 _ _ _ _ hi1 hf1 hg1 (by rw [x1.nvars]; exact hfit true)).ok_of e6
    obtain ⟨r, s3, e7, e⟩ := bind_ok_inv e
    have hr0' := hr0.ext x2.cells
    have hord : md.ordered → ∀ w, t0.Mem w ∨ t1.Mem w → v < w := by
      intro hmd w hw
      rcases hw with hw | hw
      · rcases hv0 w hw with h | h
        · exact hordc false hmd _ (by simp) w h
        · exact hordc false hmd _ (by simp) w h
      · rcases hv1 w hw with h | h
        · exact hordc true hmd _ (by simp) w h
        · exact hordc true hmd _ (by simp) w h
    obtain ⟨x3, hi3, hr, n3⟩ := (uniqueFind_spec hi2 (by rw [x2.nvars, x1.nvars]; exact hvn) hr0' hr1 hord).ok_of e7
    obtain ⟨_, s4, e8, e⟩ := bind_ok_inv e
    cases e
    have heval : ∀ x, R (tf.eval x) (tg.eval x) ((mkTree v t0 t1).eval x) := by
      intro x
      rw [mkTree_eval]
      have cf := cof_eval (v := v) (c := v == (s.cells f).index) (v' := (s.cells f).index) (l := fl) (h := fh) (by simp) x
      have cg := cof_eval (v := v) (c := v == (s.cells g).index) (v' := (s.cells g).index) (l := gl) (h := gh) (by simp) x
      rw [← htf] at cf
      rw [← htg] at cg
      rw [← cf, ← cg]
      cases hx : x v
      · simpa using ht0 x
      · simpa using ht1 x
    have hvars : ∀ w, (mkTree v t0 t1).Mem w → tf.Mem w ∨ tg.Mem w := by
      intro w hw
      rcases mkTree_mem hw with rfl | hw | hw
      · rcases hp with h | h
        · left; rw [htf]; exact Or.inl h
        · right; rw [htg]; exact Or.inl h
      · rcases hv0 w hw with h | h
        · exact Or.inl (cof_mem h)
        · exact Or.inr (cof_mem h)
      · rcases hv1 w hw with h | h
        · exact Or.inl (cof_mem h)
        · exact Or.inr (cof_mem h)
    have x123 := (x1.trans x2).trans x3
    have hne : tf ≠ tg := fun e => hfg (hi.repr_inj (e ▸ hf) hg)
    have hrel : T tf tg (mkTree v t0 t1) := by
      rw [htf, htg] at k0 k1 hne ⊢
      rw [← hvv] at k0 k1 ⊢
      exact hT _ _ fl fh gl gh t0 t1 hne k0 k1
    obtain ⟨x4, hi4, _⟩ := (cacheInsert_ok hi3 (hR.entry (hf.ext x123.cells) (hg.ext x123.cells) hr heval hvars hrel)).ok_of e8
    refine ⟨v, _, _, _, _, r0, r1, p, _, _, _, _, s1, s2, s3, hfind, ?_, ?_, ?_, ?_, hf0, hg0, hf1', hg1', hlt0 false, hlt0 true,
      fun N hN => ⟨(hfit false N hN).1, (hfit false N hN).2, (hfit true N hN).2⟩, e3, e6, e7, e8, x1, x2, x3, x4, hi1, hi2, hi3, hi4, ?_⟩
    · split <;> simp
    · split <;> simp
    · split <;> simp
    · split <;> simp
    · intro wc we
      unfold meldK
      rw [calls_of_bind hlk]
      simp only
      rw [calls_of_bind (varOf_ok hi hf f2), calls_of_bind (varOf_ok hi hg g2)]
      simp only [hvv]
      rw [calls_of_bind e1, calls_of_bind e2, calls_bind ((hc wc we _ _).run e3), calls_of_bind e4, calls_of_bind e5, calls_bind ((hc wc we _ _).run e6),
        calls_of_bind e7, calls_bind ((cacheInsertK_counts we f g tag p).run e8)]
      unfold cacheInsertK
      rw [calls_of_bind (m := M.get) (s' := s3) (a := s3) rfl, calls_ticks, calls_of, calls_pure]
      omega

/-! ### The cache during a run -/

/-- A key in the cache has living operands. -/
theorem Inv.entry_live (hi : Inv cfg md refs s) {j : Nat} (hj : j < s.memo.size) {k : Key} {q : Nat}
    (e : s.memo.entries j = ⟨some k.1, some k.2.1, k.2.2, some q⟩) : (s.cells k.1).live = true ∧ (s.cells k.2.1).live = true := by
  have he := hi.memo.entry j hj
  rw [e] at he
  obtain ⟨f', g', tf', tg', tr, e1, e2, h1, h2, _⟩ := he q rfl
  cases e1; cases e2
  exact ⟨hi.live_of h1, hi.live_of h2⟩

/-- The cache answers the same after a step that leaves it alone. -/
theorem Ext.has_iff {s' : Mgr} (x : Ext s s') (hi : Inv cfg md refs s) (hm : s'.memo = s.memo) (k : Key) : Has s' k ↔ Has s k := by
  have hpos : 0 < s.memo.size := by
    obtain ⟨n, hn⟩ := hi.memo.pow
    rw [hn]; exact Nat.two_pow_pos n
  constructor
  · intro h
    have h' := h
    unfold Has at h'
    obtain ⟨q, hq⟩ := Option.isSome_iff_exists.1 h'
    rw [find_iff, hm] at hq
    obtain ⟨l1, l2⟩ := hi.entry_live (Nat.mod_lt _ hpos) hq
    exact (has_congr hm (x.cells _ l1).2.2.2.2 (x.cells _ l2).2.2.2.2).1 h
  · intro h
    have h' := h
    unfold Has at h'
    obtain ⟨q, hq⟩ := Option.isSome_iff_exists.1 h'
    rw [find_iff] at hq
    obtain ⟨l1, l2⟩ := hi.entry_live (Nat.mod_lt _ hpos) hq
    exact (has_congr hm (x.cells _ l1).2.2.2.2 (x.cells _ l2).2.2.2.2).2 h

theorem Ext.held_eq {s' : Mgr} (x : Ext s s') (hi : Inv cfg md refs s) (hm : s'.memo = s.memo) (K : List Key) : held K s' = held K s := by
  unfold held
  refine List.countP_congr fun k _ => ?_
  simp only [decide_eq_true_eq]
  exact x.has_iff hi hm k

/-- A set of nodes closed under children. -/
def Closed (A : Nat → Prop) (s : Mgr) : Prop := ∀ a, A a → (s.cells a).live = true ∧ (2 ≤ a → A (s.cells a).lo ∧ A (s.cells a).hi)

theorem Closed.ext {A : Nat → Prop} {s' : Mgr} (h : Closed A s) (x : Ext s s') : Closed A s' := by
  intro a ha
  obtain ⟨h1, h2⟩ := h a ha
  obtain ⟨c1, c2, c3, _⟩ := x.cells a h1
  exact ⟨c1, fun a2 => by rw [c2, c3]; exact h2 a2⟩

/-- `K` contains the keys of the pairs of inner nodes of `A` and `B`, in the order of their addresses. -/
def KeysOf (cfg : Cfg) (K : List Key) (tag : Nat) (A B : Nat → Prop) : Prop :=
  ∀ a b, A a → B b → 2 ≤ a → 2 ≤ b → (cfg.addr a ≤ cfg.addr b → (a, b, tag) ∈ K) ∧ (cfg.addr b ≤ cfg.addr a → (b, a, tag) ∈ K)

theorem KeysOf.symm {K : List Key} {tag : Nat} {A B : Nat → Prop} (h : KeysOf cfg K tag A B) : KeysOf cfg K tag B A :=
  fun a b ha hb a2 b2 => (h b a hb ha b2 a2).symm

/-- Key of a pair of BDDs whose heights sum up to at most `H`. -/
def SmallKey (s : Mgr) (tag H : Nat) (k : Key) : Prop :=
  k.2.2 = tag ∧ ∃ ta tb, Repr s.cells k.1 ta ∧ Repr s.cells k.2.1 tb ∧ ta.height + tb.height ≤ H

theorem SmallKey.mono {tag H H' : Nat} {k : Key} {s' : Mgr} (h : SmallKey s tag H k) (x : Ext s s') (he : H ≤ H') : SmallKey s' tag H' k := by
  obtain ⟨h1, ta, tb, h2, h3, h4⟩ := h
  exact ⟨h1, ta, tb, h2.ext x.cells, h3.ext x.cells, by omega⟩

theorem SmallKey.absurd {tag H f g : Nat} {tf tg : Tree} (h : SmallKey s tag H (f, g, tag)) (hf : Repr s.cells f tf) (hg : Repr s.cells g tg)
    (hl : H < tf.height + tg.height) : False := by
  obtain ⟨_, ta, tb, h2, h3, h4⟩ := h
  cases h2.fn hf
  cases h3.fn hg
  omega

/-- Balance of a run from `s` to `s'` with `c` calls and `e` overwritten entries: each call beyond `b` is paid by a new key of `K` in the cache or an
overwritten entry; all new keys satisfy `S`. -/
structure Run (K : List Key) (S : Key → Prop) (s s' : Mgr) (w c e b : Nat) : Prop where
  amort : c + w * held K s ≤ b + w * held K s' + w * e
  old : ∀ k, Has s' k → Has s k ∨ S k
  drift : ∀ K' : List Key, K'.Nodup → held K' s ≤ held K' s' + e

theorem Run.same {K : List Key} {S : Key → Prop} {w c b : Nat} (e : Nat) (h : c ≤ b) : Run K S s s w c e b := ⟨by omega, fun _ h => Or.inl h, fun _ _ => by omega⟩

theorem Run.keep {K : List Key} {S : Key → Prop} {s' : Mgr} {w c b : Nat} (e : Nat) (h : c ≤ b) (hi : Inv cfg md refs s) (x : Ext s s') (hm : s'.memo = s.memo) :
    Run K S s s' w c e b := ⟨by rw [x.held_eq hi hm]; omega, fun k h => Or.inl ((x.has_iff hi hm k).1 h), fun K' _ => by rw [x.held_eq hi hm]; omega⟩

theorem meld_run {tag : Nat} {pick : Nat → Nat → Nat} {rK : Nat → Nat → Nat → Nat → MK Mgr Nat} {rec : Nat → Nat → M Mgr Nat}
    {f g : Nat} {tf tg : Tree} {s' : Mgr} {K : List Key} {A B : Nat → Prop} (hi : Inv cfg md refs s) (hf : Repr s.cells f tf) (hg : Repr s.cells g tg) (hK : K.Nodup) (hcA : Closed A s) (hcB : Closed B s)
    (hA : A f) (hB : B g) (f2 : 2 ≤ f) (g2 : 2 ≤ g) (hk : (f, g, tag) ∈ K)
    (hm : (s' = s ∧ ∀ wc we, (meldK cfg we tag pick (rK wc we) f g).calls s = 0) ∨ MeldMiss cfg md refs tag pick rK rec f g tf tg s s')
    (ih : ∀ f' g' tf' tg' s1 r' s1', Inv cfg md refs s1 → Repr s1.cells f' tf' → Repr s1.cells g' tg' → Closed A s1 → Closed B s1 → A f' → B g' →
      (∀ N, Fits md s.nvars N [tf, tg] → 0 < N ∧ Fits md s1.nvars (N - 1) [tf', tg']) →
      rec f' g' s1 = .ok r' s1' →
      Run K (SmallKey s1' tag (tf'.height + tg'.height)) s1 s1' 4 ((rK 1 0 f' g').calls s1) ((rK 0 1 f' g').calls s1) 2 ∧
      ∀ N, Fits md s1.nvars N [tf', tg'] → (rK 1 0 f' g').calls s1 + 2 ≤ 2 ^ (N + 2)) :
    Run K (SmallKey s' tag (tf.height + tg.height)) s s' 4 ((meldK cfg 0 tag pick (rK 1 0) f g).calls s) ((meldK cfg 1 tag pick (rK 0 1) f g).calls s) 0 ∧
      ∀ N, Fits md s.nvars N [tf, tg] → (meldK cfg 0 tag pick (rK 1 0) f g).calls s + 4 ≤ 2 ^ (N + 2) := by
  rcases hm with ⟨rfl, hc⟩ | ⟨v, f0, g0, f1, g1, r0, r1, r, tf0, tg0, tf1, tg1, s1, s2, s3, hmiss, a1, a2, a3, a4, hf0, hg0, hf1, hg1, lt0, lt1, hfit, e0, e1, e2, e3,
      x1, x2, x3, x4, i1, i2, i3, i4, hc⟩
  · rw [hc 1 0, hc 0 1]
    refine ⟨.same 0 (Nat.le_refl _), fun N _ => ?_⟩
    have := Nat.one_le_two_pow (n := N)
    rw [Nat.pow_add]
    omega
  · have A0 : A f0 := a1.elim (fun h => h ▸ hA) (fun h => h ▸ ((hcA f hA).2 f2).1)
    have A1 : A f1 := a3.elim (fun h => h ▸ hA) (fun h => h ▸ ((hcA f hA).2 f2).2)
    have B0 : B g0 := a2.elim (fun h => h ▸ hB) (fun h => h ▸ ((hcB g hB).2 g2).1)
    have B1 : B g1 := a4.elim (fun h => h ▸ hB) (fun h => h ▸ ((hcB g hB).2 g2).2)
    obtain ⟨R0, E0⟩ := ih f0 g0 tf0 tg0 s r0 s1 hi hf0 hg0 hcA hcB A0 B0 (fun N hN => ⟨(hfit N hN).1, (hfit N hN).2.1⟩) e0
    obtain ⟨R1, E1⟩ := ih f1 g1 tf1 tg1 s1 r1 s2 i1 (hf1.ext x1.cells) (hg1.ext x1.cells) (hcA.ext x1) (hcB.ext x1) A1 B1
      (fun N hN => ⟨(hfit N hN).1, by rw [x1.nvars]; exact (hfit N hN).2.2⟩) e1
    have m3 : s3.memo = s2.memo := (uniqueFind_mmk v r0 r1).at' _ _ _ e2
    have n2 : ¬ Has s2 (f, g, tag) := by
      intro h
      rcases R1.old _ h with h | h
      · rcases R0.old _ h with h | h
        · unfold Has at h
          rw [hmiss] at h
          cases h
        · exact h.absurd (hf.ext x1.cells) (hg.ext x1.cells) lt0
      · exact h.absurd (hf.ext (x1.trans x2).cells) (hg.ext (x1.trans x2).cells) lt1
    have n3 : ¬ Has s3 (f, g, tag) := fun h => n2 ((x3.has_iff i2 m3 _).1 h)
    have hgain := insert_gain i3.placed hK hk n3 e3
    rw [x3.held_eq i2 m3] at hgain
    rw [hc 1 0, hc 0 1]
    refine ⟨⟨?_, ?_, ?_⟩, ?_⟩
    · have h0 := R0.amort
      have h1 := R1.amort
      omega
    · intro k h
      rcases (insert_has i3.placed e3).2.1 k h with h | rfl
      · rcases R1.old _ ((x3.has_iff i2 m3 _).1 h) with h | h
        · rcases R0.old _ h with h | h
          · exact Or.inl h
          · exact Or.inr (h.mono ((x2.trans x3).trans x4) (by omega))
        · exact Or.inr (h.mono (x3.trans x4) (by omega))
      · exact Or.inr ⟨rfl, tf, tg, hf.ext (((x1.trans x2).trans x3).trans x4).cells, hg.ext (((x1.trans x2).trans x3).trans x4).cells, Nat.le_refl _⟩
    · intro K' hK'
      have h0 := R0.drift K' hK'
      have h1 := R1.drift K' hK'
      have h3 := insert_held i3.placed hK' e3
      rw [x3.held_eq i2 m3] at h3
      omega
    · intro N hN
      obtain ⟨p0, p1, p2⟩ := hfit N hN
      have h0 := E0 _ p1
      have h1 := E1 _ (by rw [x1.nvars]; exact p2)
      have : N + 2 = (N - 1 + 2) + 1 := by omega
      rw [this, Nat.pow_succ]
      omega

theorem four_le (N : Nat) : 4 ≤ 2 ^ (N + 2) := by
  have := Nat.one_le_two_pow (n := N)
  rw [Nat.pow_add]
  omega

theorem andRecK_run {K : List Key} (hK : K.Nodup) : ∀ (n N f g : Nat) (tf tg : Tree) (A B : Nat → Prop) (s : Mgr) (r : Nat) (s' : Mgr),
    Inv cfg md refs s → Repr s.cells f tf → Repr s.cells g tg → Fits md s.nvars N [tf, tg] → 2 * N + 1 + (if cfg.addr g < cfg.addr f then 1 else 0) ≤ n →
    Closed A s → Closed B s → A f → B g → KeysOf cfg K andTag A B → andRec cfg n f g s = .ok r s' →
    Run K (SmallKey s' andTag (tf.height + tg.height)) s s' 4 ((andRecK cfg 1 0 n f g).calls s) ((andRecK cfg 0 1 n f g).calls s)
      (1 + (if cfg.addr g < cfg.addr f then 1 else 0)) ∧
    ∀ N, Fits md s.nvars N [tf, tg] → (andRecK cfg 1 0 n f g).calls s + 3 ≤ 2 ^ (N + 2) + (if cfg.addr g < cfg.addr f then 1 else 0) := by
  intro n
  induction n with
  | zero => intro N f g tf tg A B s r s' _ _ _ _ hn; omega
  | succ n ih =>
    intro N f g tf tg A B s r s' hi hf hg hN hn cA cB hA hB hk e
    unfold andRec at e
    unfold andRecK
    rw [calls_ticks, calls_ticks]
    have leaf : ∀ p : Nat, (pure p : M Mgr Nat) s = .ok r s' → Run K (SmallKey s' andTag (tf.height + tg.height)) s s' 4 (1 + (pure p : MK Mgr Nat).calls s) (0 + (pure p : MK Mgr Nat).calls s)
        (1 + (if cfg.addr g < cfg.addr f then 1 else 0)) ∧ ∀ N, Fits md s.nvars N [tf, tg] → 1 + (pure p : MK Mgr Nat).calls s + 3 ≤ 2 ^ (N + 2) + (if cfg.addr g < cfg.addr f then 1 else 0) := by
      intro p e
      cases e
      exact ⟨.same 0 (by rw [calls_pure]; omega), fun N _ => by have := four_le N; rw [calls_pure]; omega⟩
    split at e
    · rename_i h; rw [if_pos h, if_pos h]
      exact leaf _ e
    · rename_i h; rw [if_neg h, if_neg h]
      split at e
      · rename_i hlt
        rw [if_pos hlt, if_pos hlt, if_pos hlt]
        rw [if_pos hlt] at hn
        obtain ⟨R, E⟩ := ih N g f tg tf B A s r s' hi hg hf hN.perm (by rw [if_neg (by omega)]; omega) cB cA hB hA hk.symm e
        rw [if_neg (by omega)] at R
        refine ⟨⟨?_, ?_, ?_⟩, ?_⟩
        · have := R.amort; omega
        · intro k h
          exact (R.old k h).imp_right fun h => h.mono (.refl _) (by omega)
        · intro K' hK'
          have := R.drift K' hK'
          omega
        · intro N hN
          have := E N hN.perm
          rw [if_neg (by omega)] at this
          omega
      · rename_i hlt
        rw [if_neg hlt] at hn
        rw [if_neg hlt, if_neg hlt, if_neg hlt]
        simp only [if_neg hlt] at leaf
        split at e
        · rename_i h; rw [if_pos h, if_pos h]; exact leaf _ e
        split at e
        · rename_i h1 h; rw [if_neg h1, if_neg h1, if_pos h, if_pos h]; exact leaf _ e
        split at e
        · rename_i h1 h2 h; rw [if_neg h1, if_neg h1, if_neg h2, if_neg h2, if_pos h, if_pos h]; exact leaf _ e
        split at e
        · rename_i h1 h2 h3 h; rw [if_neg h1, if_neg h1, if_neg h2, if_neg h2, if_neg h3, if_neg h3, if_pos h, if_pos h]; exact leaf _ e
        rename_i f1 f0 g1 g0
        rw [if_neg f1, if_neg f1, if_neg f0, if_neg f0, if_neg g1, if_neg g1, if_neg g0, if_neg g0]
        have f2 := two_le_of f0 f1
        have g2 := two_le_of g0 g1
        have hsp := meldK_split (cfg := cfg) (md := md) (refs := refs) (rK := fun wc we => andRecK cfg wc we n) (Or.inl ⟨rfl, rfl, rfl⟩) tAnd_step pickMin_or (fun _ => pickMin_le)
          (fun wc we f g => andRecK_counts wc we n f g) hi hf hg f2 g2 h
          (by
            intro s' f' g' tf' tg' hi' hf' hg' hlt
            obtain ⟨h0, hN'⟩ := hlt N hN
            refine andRec_ok n (N - 1) f' g' tf' tg' s' hi' hf' hg' hN' ?_
            have : (if cfg.addr g' < cfg.addr f' then 1 else 0) ≤ 1 := by split <;> omega
            omega) e
        obtain ⟨R, E⟩ := meld_run (cfg := cfg) (md := md) (refs := refs) (rK := fun wc we => andRecK cfg wc we n) hi hf hg hK cA cB hA hB f2 g2 ((hk f g hA hB f2 g2).1 (by omega)) hsp
          (by
            intro f' g' tf' tg' s1 r' s1' hi' hf' hg' cA' cB' hA' hB' hlt e'
            obtain ⟨h0, hN'⟩ := hlt N hN
            have sw : (if cfg.addr g' < cfg.addr f' then 1 else 0) ≤ 1 := by split <;> omega
            obtain ⟨R, E⟩ := ih (N - 1) f' g' tf' tg' A B s1 r' s1' hi' hf' hg' hN' (by omega) cA' cB' hA' hB' hk e'
            refine ⟨⟨?_, R.old, R.drift⟩, ?_⟩
            · have := R.amort; omega
            · intro N hN
              have := E N hN
              omega)
        refine ⟨⟨?_, R.old, fun K' hK' => by have := R.drift K' hK'; omega⟩, ?_⟩
        · have := R.amort; omega
        · intro N hN
          have := E N hN
          omega
theorem orRecK_run (hs : SemOr md) {K : List Key} (hK : K.Nodup) : ∀ (n N f g : Nat) (tf tg : Tree) (A B : Nat → Prop) (s : Mgr) (r : Nat) (s' : Mgr),
    Inv cfg md refs s → Repr s.cells f tf → Repr s.cells g tg → Fits md s.nvars N [tf, tg] → 2 * N + 1 + (if cfg.addr g < cfg.addr f then 1 else 0) ≤ n →
    Closed A s → Closed B s → A f → B g → KeysOf cfg K orTag A B → orRec cfg n f g s = .ok r s' →
    Run K (SmallKey s' orTag (tf.height + tg.height)) s s' 4 ((orRecK cfg 1 0 n f g).calls s) ((orRecK cfg 0 1 n f g).calls s)
      (1 + (if cfg.addr g < cfg.addr f then 1 else 0)) ∧
    ∀ N, Fits md s.nvars N [tf, tg] → (orRecK cfg 1 0 n f g).calls s + 3 ≤ 2 ^ (N + 2) + (if cfg.addr g < cfg.addr f then 1 else 0) := by
  intro n
  induction n with
  | zero => intro N f g tf tg A B s r s' _ _ _ _ hn; omega
  | succ n ih =>
    intro N f g tf tg A B s r s' hi hf hg hN hn cA cB hA hB hk e
    unfold orRec at e
    unfold orRecK
    rw [calls_ticks, calls_ticks]
    have leaf : ∀ p : Nat, (pure p : M Mgr Nat) s = .ok r s' → Run K (SmallKey s' orTag (tf.height + tg.height)) s s' 4 (1 + (pure p : MK Mgr Nat).calls s) (0 + (pure p : MK Mgr Nat).calls s)
        (1 + (if cfg.addr g < cfg.addr f then 1 else 0)) ∧ ∀ N, Fits md s.nvars N [tf, tg] → 1 + (pure p : MK Mgr Nat).calls s + 3 ≤ 2 ^ (N + 2) + (if cfg.addr g < cfg.addr f then 1 else 0) := by
      intro p e
      cases e
      exact ⟨.same 0 (by rw [calls_pure]; omega), fun N _ => by have := four_le N; rw [calls_pure]; omega⟩
    split at e
    · rename_i h; rw [if_pos h, if_pos h]
      exact leaf _ e
    · rename_i h; rw [if_neg h, if_neg h]
      split at e
      · rename_i hlt
        rw [if_pos hlt, if_pos hlt, if_pos hlt]
        rw [if_pos hlt] at hn
        obtain ⟨R, E⟩ := ih N g f tg tf B A s r s' hi hg hf hN.perm (by rw [if_neg (by omega)]; omega) cB cA hB hA hk.symm e
        rw [if_neg (by omega)] at R
        refine ⟨⟨?_, ?_, ?_⟩, ?_⟩
        · have := R.amort; omega
        · intro k h
          exact (R.old k h).imp_right fun h => h.mono (.refl _) (by omega)
        · intro K' hK'
          have := R.drift K' hK'
          omega
        · intro N hN
          have := E N hN.perm
          rw [if_neg (by omega)] at this
          omega
      · rename_i hlt
        rw [if_neg hlt] at hn
        rw [if_neg hlt, if_neg hlt, if_neg hlt]
        simp only [if_neg hlt] at leaf
        split at e
        · rename_i h; rw [if_pos h, if_pos h]; exact leaf _ e
        split at e
        · rename_i h1 h; rw [if_neg h1, if_neg h1, if_pos h, if_pos h]; exact leaf _ e
        split at e
        · rename_i h1 h2 h; rw [if_neg h1, if_neg h1, if_neg h2, if_neg h2, if_pos h, if_pos h]; exact leaf _ e
        split at e
        · rename_i h1 h2 h3 h; rw [if_neg h1, if_neg h1, if_neg h2, if_neg h2, if_neg h3, if_neg h3, if_pos h, if_pos h]; exact leaf _ e
        rename_i f1 f0 g1 g0
        rw [if_neg f1, if_neg f1, if_neg f0, if_neg f0, if_neg g1, if_neg g1, if_neg g0, if_neg g0]
        have f2 := two_le_of f0 f1
        have g2 := two_le_of g0 g1
        have hsp := meldK_split (cfg := cfg) (md := md) (refs := refs) (rK := fun wc we => orRecK cfg wc we n) (Or.inr ⟨rfl, rfl, rfl⟩) hs.rstep pickMin_or (fun _ => pickMin_le)
          (fun wc we f g => orRecK_counts wc we n f g) hi hf hg f2 g2 h
          (by
            intro s' f' g' tf' tg' hi' hf' hg' hlt
            obtain ⟨h0, hN'⟩ := hlt N hN
            refine orRec_ok hs n (N - 1) f' g' tf' tg' s' hi' hf' hg' hN' ?_
            have : (if cfg.addr g' < cfg.addr f' then 1 else 0) ≤ 1 := by split <;> omega
            omega) e
        obtain ⟨R, E⟩ := meld_run (cfg := cfg) (md := md) (refs := refs) (rK := fun wc we => orRecK cfg wc we n) hi hf hg hK cA cB hA hB f2 g2 ((hk f g hA hB f2 g2).1 (by omega)) hsp
          (by
            intro f' g' tf' tg' s1 r' s1' hi' hf' hg' cA' cB' hA' hB' hlt e'
            obtain ⟨h0, hN'⟩ := hlt N hN
            have sw : (if cfg.addr g' < cfg.addr f' then 1 else 0) ≤ 1 := by split <;> omega
            obtain ⟨R, E⟩ := ih (N - 1) f' g' tf' tg' A B s1 r' s1' hi' hf' hg' hN' (by omega) cA' cB' hA' hB' hk e'
            refine ⟨⟨?_, R.old, R.drift⟩, ?_⟩
            · have := R.amort; omega
            · intro N hN
              have := E N hN
              omega)
        refine ⟨⟨?_, R.old, fun K' hK' => by have := R.drift K' hK'; omega⟩, ?_⟩
        · have := R.amort; omega
        · intro N hN
          have := E N hN
          omega
theorem xorRecK_run (hs : SemXor md) (hno : ¬ md.ordered) {K : List Key} (hK : K.Nodup) : ∀ (n N f g : Nat) (tf tg : Tree) (A B : Nat → Prop) (s : Mgr) (r : Nat) (s' : Mgr),
    Inv cfg md refs s → Repr s.cells f tf → Repr s.cells g tg → Fits md s.nvars N [tf, tg] → 2 * N + 1 + (if cfg.addr g < cfg.addr f then 1 else 0) ≤ n →
    Closed A s → Closed B s → A f → B g → KeysOf cfg K xorTag A B → xorRec cfg n f g s = .ok r s' →
    Run K (SmallKey s' xorTag (tf.height + tg.height)) s s' 4 ((xorRecK cfg 1 0 n f g).calls s) ((xorRecK cfg 0 1 n f g).calls s)
      (1 + (if cfg.addr g < cfg.addr f then 1 else 0)) ∧
    ∀ N, Fits md s.nvars N [tf, tg] → (xorRecK cfg 1 0 n f g).calls s + 3 ≤ 2 ^ (N + 2) + (if cfg.addr g < cfg.addr f then 1 else 0) := by
  intro n
  induction n with
  | zero => intro N f g tf tg A B s r s' _ _ _ _ hn; omega
  | succ n ih =>
    intro N f g tf tg A B s r s' hi hf hg hN hn cA cB hA hB hk e
    unfold xorRec at e
    unfold xorRecK
    rw [calls_ticks, calls_ticks]
    have leaf : ∀ p : Nat, (pure p : M Mgr Nat) s = .ok r s' → Run K (SmallKey s' xorTag (tf.height + tg.height)) s s' 4 (1 + (pure p : MK Mgr Nat).calls s) (0 + (pure p : MK Mgr Nat).calls s)
        (1 + (if cfg.addr g < cfg.addr f then 1 else 0)) ∧ ∀ N, Fits md s.nvars N [tf, tg] → 1 + (pure p : MK Mgr Nat).calls s + 3 ≤ 2 ^ (N + 2) + (if cfg.addr g < cfg.addr f then 1 else 0) := by
      intro p e
      cases e
      exact ⟨.same 0 (by rw [calls_pure]; omega), fun N _ => by have := four_le N; rw [calls_pure]; omega⟩
    have leafN : ∀ (p : Nat) (tp : Tree), Repr s.cells p tp → negateOp cfg p s = .ok r s' →
        Run K (SmallKey s' xorTag (tf.height + tg.height)) s s' 4 (1 + (MK.of (negateOp cfg p)).calls s) (0 + (MK.of (negateOp cfg p)).calls s) (1 + 0) ∧
        ∀ N, Fits md s.nvars N [tf, tg] → 1 + (MK.of (negateOp cfg p)).calls s + 3 ≤ 2 ^ (N + 2) + 0 := by
      intro p tp hp e
      obtain ⟨x, _, _⟩ := (negateOp_tree hi hp).ok_of e
      exact ⟨.keep 0 (by rw [calls_of]; omega) hi x ((negateOp_mmk p).at' _ _ _ e), fun N _ => by have := four_le N; rw [calls_of]; omega⟩
    split at e
    · rename_i h; rw [if_pos h, if_pos h]
      exact leaf _ e
    · rename_i h; rw [if_neg h, if_neg h]
      split at e
      · rename_i hlt
        rw [if_pos hlt, if_pos hlt, if_pos hlt]
        rw [if_pos hlt] at hn
        obtain ⟨R, E⟩ := ih N g f tg tf B A s r s' hi hg hf hN.perm (by rw [if_neg (by omega)]; omega) cB cA hB hA hk.symm e
        rw [if_neg (by omega)] at R
        refine ⟨⟨?_, ?_, ?_⟩, ?_⟩
        · have := R.amort; omega
        · intro k h
          exact (R.old k h).imp_right fun h => h.mono (.refl _) (by omega)
        · intro K' hK'
          have := R.drift K' hK'
          omega
        · intro N hN
          have := E N hN.perm
          rw [if_neg (by omega)] at this
          omega
      · rename_i hlt
        rw [if_neg hlt] at hn
        rw [if_neg hlt, if_neg hlt, if_neg hlt]
        simp only [if_neg hlt] at leaf
        split at e
        · rename_i h; rw [if_pos h, if_pos h]; exact leaf _ e
        split at e
        · rename_i h1 h; rw [if_neg h1, if_neg h1, if_pos h, if_pos h]; exact leaf _ e
        split at e
        · rename_i h1 h2 h; rw [if_neg h1, if_neg h1, if_neg h2, if_neg h2, if_pos h, if_pos h]; exact leafN g tg hg e
        split at e
        · rename_i h1 h2 h3 h; rw [if_neg h1, if_neg h1, if_neg h2, if_neg h2, if_neg h3, if_neg h3, if_pos h, if_pos h]; exact leafN f tf hf e
        rename_i f0 g0 f1 g1
        rw [if_neg f0, if_neg f0, if_neg g0, if_neg g0, if_neg f1, if_neg f1, if_neg g1, if_neg g1]
        have f2 := two_le_of f0 f1
        have g2 := two_le_of g0 g1
        have hsp := meldK_split (cfg := cfg) (md := md) (refs := refs) (rK := fun wc we => xorRecK cfg wc we n) (Or.inr ⟨rfl, rfl, rfl⟩) hs.rstep pickMax_or (fun h => (hno h).elim)
          (fun wc we f g => xorRecK_counts wc we n f g) hi hf hg f2 g2 h
          (by
            intro s' f' g' tf' tg' hi' hf' hg' hlt
            obtain ⟨h0, hN'⟩ := hlt N hN
            refine xorRec_ok hs hno n (N - 1) f' g' tf' tg' s' hi' hf' hg' hN' ?_
            have : (if cfg.addr g' < cfg.addr f' then 1 else 0) ≤ 1 := by split <;> omega
            omega) e
        obtain ⟨R, E⟩ := meld_run (cfg := cfg) (md := md) (refs := refs) (rK := fun wc we => xorRecK cfg wc we n) hi hf hg hK cA cB hA hB f2 g2 ((hk f g hA hB f2 g2).1 (by omega)) hsp
          (by
            intro f' g' tf' tg' s1 r' s1' hi' hf' hg' cA' cB' hA' hB' hlt e'
            obtain ⟨h0, hN'⟩ := hlt N hN
            have sw : (if cfg.addr g' < cfg.addr f' then 1 else 0) ≤ 1 := by split <;> omega
            obtain ⟨R, E⟩ := ih (N - 1) f' g' tf' tg' A B s1 r' s1' hi' hf' hg' hN' (by omega) cA' cB' hA' hB' hk e'
            refine ⟨⟨?_, R.old, R.drift⟩, ?_⟩
            · have := R.amort; omega
            · intro N hN
              have := E N hN
              omega)
        refine ⟨⟨?_, R.old, fun K' hK' => by have := R.drift K' hK'; omega⟩, ?_⟩
        · have := R.amort; omega
        · intro N hN
          have := E N hN
          omega

/-! ### The keys a run can use -/

theorem exists_nodup {α : Type} (l : List α) : ∃ k : List α, k.Nodup ∧ k.length ≤ l.length ∧ ∀ x, x ∈ l → x ∈ k := by
  classical
  induction l with
  | nil => exact ⟨[], List.nodup_nil, Nat.le_refl _, fun _ h => h⟩
  | cons a l ih =>
    obtain ⟨k, h1, h2, h3⟩ := ih
    by_cases ha : a ∈ k
    · exact ⟨k, h1, by rw [List.length_cons]; omega, fun x hx => (List.mem_cons.1 hx).elim (fun e => e ▸ ha) (h3 x)⟩
    · exact ⟨a :: k, List.nodup_cons.2 ⟨ha, h1⟩, by rw [List.length_cons, List.length_cons]; omega,
        fun x hx => (List.mem_cons.1 hx).elim (fun e => by simp [e]) (fun h => by simp [h3 x h])⟩

theorem reaches_closed {p : Nat} {t : Tree} (hi : Inv cfg md refs s) (h : Repr s.cells p t) : Closed (fun q => Reaches s.cells p q) s := by
  intro q hq
  obtain ⟨tq, hq', _⟩ := hq.height h
  have hl := hi.live_of hq'
  exact ⟨hl, fun q2 => ⟨hq.trans (.lo q2 hl (.refl _)), hq.trans (.hi q2 hl (.refl _))⟩⟩

theorem reaches_mem {p : Nat} {t : Tree} (h : Repr s.cells p t) : ∀ q, 2 ≤ q → Reaches s.cells p q → q ∈ unfolding s.cells p t := fun _ q2 hq => hq.mem_unfolding q2 h

theorem keysOf_lists {f g : Nat} {lf lg : List Nat} (hlf : ∀ q, 2 ≤ q → Reaches s.cells f q → q ∈ lf) (hlg : ∀ q, 2 ≤ q → Reaches s.cells g q → q ∈ lg) (tag : Nat) :
    ∃ K : List Key, K.Nodup ∧ K.length ≤ lf.length * lg.length ∧ KeysOf cfg K tag (fun q => Reaches s.cells f q) (fun q => Reaches s.cells g q) := by
  obtain ⟨K, h1, h2, h3⟩ := exists_nodup (lf.flatMap fun x => lg.map fun y => if cfg.addr y < cfg.addr x then ((y, x, tag) : Key) else (x, y, tag))
  refine ⟨K, h1, ?_, ?_⟩
  · refine Nat.le_trans h2 (Nat.le_of_eq ?_)
    rw [List.length_flatMap]
    simp only [List.length_map]
    rw [List.map_const', List.sum_replicate_nat]
  · intro x y hx hy x2 y2
    have mx := hlf x x2 hx
    have my := hlg y y2 hy
    have mem : (if cfg.addr y < cfg.addr x then ((y, x, tag) : Key) else (x, y, tag)) ∈ K :=
      h3 _ (List.mem_flatMap.2 ⟨x, mx, List.mem_map.2 ⟨y, my, rfl⟩⟩)
    refine ⟨fun h => by rw [if_neg (by omega)] at mem; exact mem, fun h => ?_⟩
    by_cases he : cfg.addr y < cfg.addr x
    · rw [if_pos he] at mem; exact mem
    · have : x = y := cfg.addr_inj _ _ (by omega)
      subst this
      rw [if_neg he] at mem; exact mem
end
end LBDD
