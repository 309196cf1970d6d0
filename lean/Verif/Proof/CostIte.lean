import Verif.Proof.CostOps
import Verif.Proof.Ite
/-! Number of calls of `ite_rec`. -/
namespace LBDD
section
variable {cfg : Cfg} {md : Md} {refs : Nat → Nat} {s : Mgr}

theorem iteRecK_counts (wc we : Nat) : ∀ n f g h, Counts (iteRecK cfg wc we n f g h) (iteRec cfg n f g h)
  | 0, _, _, _ => .of _
  | n + 1, f, g, h => by
    unfold iteRecK iteRec
    refine .ticks (.bind (.of _) fun b => .ite (.pure _) (.bind (.of _) fun b => .ite (.pure _) (.bind (.of _) fun b => .ite (orOpK_counts 0 we f h)
      (.bind (.of _) fun b => .ite (andOpK_counts 0 we f g) (.ite (.pure _) (.bind (.of _) fun b => .ite (xorOpK_counts 0 we _ f) (.bind (.of _) fun o => ?_)))))))
    cases o with
    | some m => exact .pure _
    | none =>
      exact .bind (.of _) fun _ => .bind (.of _) fun _ => .bind (.of _) fun _ => .bind (.of _) fun _ => .bind (.of _) fun _ => .bind (.of _) fun _ =>
        .bind (iteRecK_counts wc we n _ _ _) fun _ => .bind (.of _) fun _ => .bind (.of _) fun _ => .bind (.of _) fun _ =>
        .bind (iteRecK_counts wc we n _ _ _) fun _ => .bind (.of _) fun _ => .bind (cacheInsertK_counts _ _ _ _ _) fun _ => .pure _

theorem iteOpK_counts (wc we f g h : Nat) : Counts (iteOpK cfg wc we f g h) (iteOp cfg f g h) := .bind (.of _) fun _ => iteRecK_counts wc we _ f g h

theorem SpecB.ok_of {bad : Prop} {α : Type} {m : M Mgr α} {P : α → Mgr → Prop} (h : SpecB bad cfg md refs m s P) {a : α} {s' : Mgr} (e : m s = .ok a s') :
    Ext s s' ∧ Inv cfg md refs s' ∧ P a s' := by
  unfold SpecB at h
  rw [e] at h
  exact h

theorem lowIf_val' {c : Bool} {p : Nat} {t : Tree} (h : Repr s.cells p t) (h2 : c = true → 2 ≤ p) :
    lowIf c p s = .ok (if c then (s.cells p).lo else p) s ∧ Repr s.cells (if c then (s.cells p).lo else p) (cof c false t) := by
  cases c with
  | true => exact lowIf_val h (h2 rfl)
  | false =>
    obtain ⟨q, e, hq⟩ := lowIf_ok (c := false) h h2
    cases e
    exact ⟨rfl, hq⟩

theorem highIf_val' {c : Bool} {p : Nat} {t : Tree} (h : Repr s.cells p t) (h2 : c = true → 2 ≤ p) :
    highIf c p s = .ok (if c then (s.cells p).hi else p) s ∧ Repr s.cells (if c then (s.cells p).hi else p) (cof c true t) := by
  cases c with
  | true => exact highIf_val h (h2 rfl)
  | false =>
    obtain ⟨q, e, hq⟩ := highIf_ok (c := false) h h2
    cases e
    exact ⟨rfl, hq⟩

/-- The number of calls that `and_rec` and `or_rec` count, and the cache, in a base case of `ite_rec`. -/
theorem andOpK_drift {f g : Nat} {tf tg : Tree} (hi : Inv cfg md refs s) (hf : Repr s.cells f tf) (hg : Repr s.cells g tg) {r : Nat} {s' : Mgr}
    (e : andOp cfg f g s = .ok r s') (K : List Key) (hK : K.Nodup) :
    held K s ≤ held K s' + (andOpK cfg 0 1 f g).calls s ∧ ∀ k, Has s' k → Has s k ∨ k.2.2 = andTag := by
  obtain ⟨K', k1, _, k3⟩ := keysOf_lists (cfg := cfg) (reaches_mem hf) (reaches_mem hg) andTag
  unfold andOp at e
  rw [M.get_bind_apply] at e
  obtain ⟨R, _⟩ := andRecK_run k1 _ _ f g tf tg _ _ s r s' hi hf hg (fuel2_ok hi hf hg).1 (fuel2_ok hi hf hg).2
    (reaches_closed hi hf) (reaches_closed hi hg) (.refl _) (.refl _) k3 e
  unfold andOpK
  rw [calls_of_bind (m := M.get) (s' := s) (a := s) rfl]
  exact ⟨R.drift K hK, fun k h => (R.old k h).imp_right fun h => h.1⟩

theorem orOpK_drift (hs : SemOr md) {f g : Nat} {tf tg : Tree} (hi : Inv cfg md refs s) (hf : Repr s.cells f tf) (hg : Repr s.cells g tg) {r : Nat} {s' : Mgr}
    (e : orOp cfg f g s = .ok r s') (K : List Key) (hK : K.Nodup) :
    held K s ≤ held K s' + (orOpK cfg 0 1 f g).calls s ∧ ∀ k, Has s' k → Has s k ∨ k.2.2 = orTag := by
  obtain ⟨K', k1, _, k3⟩ := keysOf_lists (cfg := cfg) (reaches_mem hf) (reaches_mem hg) orTag
  unfold orOp at e
  rw [M.get_bind_apply] at e
  obtain ⟨R, _⟩ := orRecK_run hs k1 _ _ f g tf tg _ _ s r s' hi hf hg (fuel2_ok hi hf hg).1 (fuel2_ok hi hf hg).2
    (reaches_closed hi hf) (reaches_closed hi hg) (.refl _) (.refl _) k3 e
  unfold orOpK
  rw [calls_of_bind (m := M.get) (s' := s) (a := s) rfl]
  exact ⟨R.drift K hK, fun k h => (R.old k h).imp_right fun h => h.1⟩

/-- Nothing is counted. -/
def Free {α : Type} (mk : MK Mgr α) : Prop := ∀ s, (mk s).2 = 0

theorem Free.of {α : Type} (m : M Mgr α) : Free (.of m) := fun _ => rfl
theorem Free.pure {α : Type} (a : α) : Free (Pure.pure a : MK Mgr α) := fun _ => rfl
theorem Free.ticks : Free (MK.ticks 0 : MK Mgr Unit) := fun _ => rfl
theorem Free.bind {α β : Type} {m : MK Mgr α} {k : α → MK Mgr β} (h : Free m) (hk : ∀ a, Free (k a)) : Free (m >>= k) := by
  intro s
  show (MK.bind m k s).2 = 0
  unfold MK.bind
  have := h s
  revert this
  rcases m s with ⟨o, c⟩
  intro this
  simp only at this
  subst this
  cases o with
  | ok a s' => simp only; rw [hk a s']
  | throw _ => rfl
  | assertFail => rfl
  | ub => rfl
  | hang => rfl
theorem Free.ite {α : Type} {c : Prop} [Decidable c] {m m' : MK Mgr α} (h : Free m) (h' : Free m') : Free (if c then m else m') := by
  split
  · exact h
  · exact h'

theorem cacheInsertK_free (f g h r : Nat) : Free (cacheInsertK cfg 0 f g h r) := by
  unfold cacheInsertK
  refine .bind (.of _) fun s => .bind ?_ fun _ => .of _
  rw [Nat.zero_mul]; exact .ticks

theorem meldK_free {tag : Nat} {pick : Nat → Nat → Nat} {rK : Nat → Nat → MK Mgr Nat} (h : ∀ f g, Free (rK f g)) (f g : Nat) : Free (meldK cfg 0 tag pick rK f g) := by
  unfold meldK
  refine .bind (.of _) fun o => ?_
  cases o with
  | some m => exact .pure _
  | none =>
    exact .bind (.of _) fun _ => .bind (.of _) fun _ => .bind (.of _) fun _ => .bind (.of _) fun _ => .bind (h _ _) fun _ => .bind (.of _) fun _ =>
      .bind (.of _) fun _ => .bind (h _ _) fun _ => .bind (.of _) fun _ => .bind (cacheInsertK_free _ _ _ _) fun _ => .pure _

theorem andRecK_free : ∀ n f g, Free (andRecK cfg 0 0 n f g)
  | 0, _, _ => .of _
  | n + 1, f, g => by
    unfold andRecK
    exact .bind .ticks fun _ => (.ite (.pure _) (.ite (andRecK_free n _ _) (.ite (.pure _) (.ite (.pure _) (.ite (.pure _) (.ite (.pure _)
      (meldK_free (andRecK_free n) f g)))))))

theorem orRecK_free : ∀ n f g, Free (orRecK cfg 0 0 n f g)
  | 0, _, _ => .of _
  | n + 1, f, g => by
    unfold orRecK
    exact .bind .ticks fun _ => (.ite (.pure _) (.ite (orRecK_free n _ _) (.ite (.pure _) (.ite (.pure _) (.ite (.pure _) (.ite (.pure _)
      (meldK_free (orRecK_free n) f g)))))))

theorem andOpK_free (f g : Nat) (s : Mgr) : (andOpK cfg 0 0 f g).calls s = 0 := (Free.bind (.of _) fun s => andRecK_free (fuel2 s) f g : Free (andOpK cfg 0 0 f g)) s
theorem orOpK_free (f g : Nat) (s : Mgr) : (orOpK cfg 0 0 f g).calls s = 0 := (Free.bind (.of _) fun s => orRecK_free (fuel2 s) f g : Free (orOpK cfg 0 0 f g)) s

/-- In the base case `ite(f, bot, top)` nothing is counted, and the cache is left alone. -/
theorem xorTop_free {f : Nat} (f2 : 2 ≤ f) (we : Nat) {r : Nat} {s' : Mgr} (e : xorOp cfg topId f s = .ok r s') :
    (xorOpK cfg 0 we topId f).calls s = 0 ∧ s'.memo = s.memo := by
  have h1 : f ≠ topId := by unfold topId; omega
  have h0 : f ≠ botId := by unfold botId; omega
  unfold xorOp fuel2 at e
  unfold xorOpK fuel2
  rw [M.get_bind_apply] at e
  rw [calls_of_bind (m := M.get) (s' := s) (a := s) rfl]
  by_cases hlt : cfg.addr f < cfg.addr topId
  · rw [xorRec, if_neg h1.symm, if_pos hlt, xorRec, if_neg h1, if_neg (by omega), if_neg h0, if_neg (by decide), if_neg h1, if_pos rfl] at e
    rw [xorRecK, calls_ticks, if_neg h1.symm, if_pos hlt, xorRecK, calls_ticks, if_neg h1, if_neg (by omega), if_neg h0, if_neg (by decide), if_neg h1, if_pos rfl, calls_of]
    exact ⟨rfl, (negateOp_mmk f).at' _ _ _ e⟩
  · rw [xorRec, if_neg h1.symm, if_neg hlt, if_neg (by decide), if_neg h0, if_pos rfl] at e
    rw [xorRecK, calls_ticks, if_neg h1.symm, if_neg hlt, if_neg (by decide), if_neg h0, if_pos rfl, calls_of]
    exact ⟨rfl, (negateOp_mmk f).at' _ _ _ e⟩

/-- Key that `ite_rec` on BDDs whose heights sum up to at most `H` may add. -/
def IteKey (cfg : Cfg) (s : Mgr) (H : Nat) (k : Key) : Prop :=
  k.2.2 ≤ 64 ∨ ∃ q ta tb tc, k.2.2 = cfg.addr q ∧ Repr s.cells k.1 ta ∧ Repr s.cells k.2.1 tb ∧ Repr s.cells q tc ∧ ta.height + tb.height + tc.height ≤ H

theorem IteKey.mono {H H' : Nat} {k : Key} {s' : Mgr} (h : IteKey cfg s H k) (x : Ext s s') (he : H ≤ H') : IteKey cfg s' H' k := by
  rcases h with h | ⟨q, ta, tb, tc, h1, h2, h3, h4, h5⟩
  · exact Or.inl h
  · exact Or.inr ⟨q, ta, tb, tc, h1, h2.ext x.cells, h3.ext x.cells, h4.ext x.cells, by omega⟩

theorem IteKey.absurd {H f g h : Nat} {tf tg th : Tree} (hk : IteKey cfg s H (f, g, cfg.addr h)) (hf : Repr s.cells f tf) (hg : Repr s.cells g tg)
    (hh : Repr s.cells h th) (hl : H < tf.height + tg.height + th.height) : False := by
  rcases hk with hk | ⟨q, ta, tb, tc, h1, h2, h3, h4, h5⟩
  · have := cfg.addr_big h; simp only at hk; omega
  · have := cfg.addr_inj _ _ h1
    subst this
    cases h2.fn hf
    cases h3.fn hg
    cases h4.fn hh
    omega


/-- `K` contains the keys that `ite_rec` uses on nodes of `A`, `B` and `C`. -/
def KeysOf3 (cfg : Cfg) (K : List Key) (A B C : Nat → Prop) : Prop := ∀ a b c, A a → B b → C c → 2 ≤ a → (a, b, cfg.addr c) ∈ K

theorem two_le_pow (N : Nat) : 2 ≤ 2 ^ (N + 1) := by
  have := Nat.one_le_two_pow (n := N)
  rw [Nat.pow_succ]
  omega

theorem iteRecK_run (hs : SemIte md) {K : List Key} (hK : K.Nodup) {A B C : Nat → Prop} (hk : KeysOf3 cfg K A B C) :
    ∀ (n f g h : Nat) (tf tg th : Tree) (s : Mgr) (r : Nat) (s' : Mgr),
    Inv cfg md refs s → Repr s.cells f tf → Repr s.cells g tg → Repr s.cells h th → 0 < n → Fits md s.nvars (n - 1) [tf, tg, th] →
    Closed A s → Closed B s → Closed C s → A f → B g → C h → iteRec cfg n f g h s = .ok r s' →
    Run K (IteKey cfg s' (tf.height + tg.height + th.height)) s s' 2 ((iteRecK cfg 1 0 n f g h).calls s) ((iteRecK cfg 0 1 n f g h).calls s) 1 ∧
    ∀ N, Fits md s.nvars N [tf, tg, th] → (iteRecK cfg 1 0 n f g h).calls s + 1 ≤ 2 ^ (N + 1) := by
  intro n
  induction n with
  | zero => intro f g h tf tg th s r s' _ _ _ _ hn; omega
  | succ n ih =>
    intro f g h tf tg th s r s' hi hf hg hh _ hn cA cB cC hA hB hC e
    rw [show n + 1 - 1 = n from rfl] at hn
    unfold iteRec at e
    unfold iteRecK
    rw [calls_ticks, calls_ticks]
    have leaf : ∀ p : Nat, (pure p : M Mgr Nat) s = .ok r s' → Run K (IteKey cfg s' (tf.height + tg.height + th.height)) s s' 2 (1 + (pure p : MK Mgr Nat).calls s)
        (0 + (pure p : MK Mgr Nat).calls s) 1 ∧ ∀ N, Fits md s.nvars N [tf, tg, th] → 1 + (pure p : MK Mgr Nat).calls s + 1 ≤ 2 ^ (N + 1) := by
      intro p e
      cases e
      exact ⟨.same 0 (by rw [calls_pure]; omega), fun N _ => by have := two_le_pow N; rw [calls_pure]; omega⟩
    rw [calls_of_bind (isTop_ok hi hf), calls_of_bind (isTop_ok hi hf)]
    rw [M.bind_ok (isTop_ok hi hf)] at e
    by_cases f1 : f = 1
    · have : decide (f = 1) = true := by simpa using f1
      rw [if_pos this, if_pos this]
      rw [if_pos this] at e
      exact leaf _ e
    have this : ¬ decide (f = 1) = true := by simpa using f1
    rw [if_neg this, if_neg this]
    rw [if_neg this] at e
    clear this
    rw [calls_of_bind (isBot_ok hi hf), calls_of_bind (isBot_ok hi hf)]
    rw [M.bind_ok (isBot_ok hi hf)] at e
    by_cases f0 : f = 0
    · have : decide (f = 0) = true := by simpa using f0
      rw [if_pos this, if_pos this]
      rw [if_pos this] at e
      exact leaf _ e
    have this : ¬ decide (f = 0) = true := by simpa using f0
    rw [if_neg this, if_neg this]
    rw [if_neg this] at e
    clear this
    have f2 : 2 ≤ f := by omega
    have c1 : (if g = f then (pure true : M Mgr Bool) else isTop cfg g) s = .ok (decide (g = f ∨ g = 1)) s := by
      split
      · rename_i e; simp [e]; rfl
      · rename_i e; rw [isTop_ok hi hg]; simp [e]
    rw [calls_of_bind c1, calls_of_bind c1]
    rw [M.bind_ok c1] at e
    by_cases hc1 : g = f ∨ g = 1
    · have this : decide (g = f ∨ g = 1) = true := by simpa using hc1
      rw [if_pos this, if_pos this]
      rw [if_pos this] at e
      rw [orOpK_free]
      refine ⟨⟨?_, ?_, ?_⟩, fun N _ => two_le_pow N⟩
      · have := (orOpK_drift hs.toSemOr hi hf hh e K hK).1; omega
      · intro k hk
        exact ((orOpK_drift hs.toSemOr hi hf hh e K hK).2 k hk).imp_right fun h => Or.inl (by rw [h]; decide)
      · intro K' hK'
        have := (orOpK_drift hs.toSemOr hi hf hh e K' hK').1; omega
    have this : ¬ decide (g = f ∨ g = 1) = true := by simpa using hc1
    rw [if_neg this, if_neg this]
    rw [if_neg this] at e
    clear this
    have c2 : (if h = f then (pure true : M Mgr Bool) else isBot cfg h) s = .ok (decide (h = f ∨ h = 0)) s := by
      split
      · rename_i e; simp [e]; rfl
      · rename_i e; rw [isBot_ok hi hh]; simp [e]
    rw [calls_of_bind c2, calls_of_bind c2]
    rw [M.bind_ok c2] at e
    by_cases hc2 : h = f ∨ h = 0
    · have this : decide (h = f ∨ h = 0) = true := by simpa using hc2
      rw [if_pos this, if_pos this]
      rw [if_pos this] at e
      rw [andOpK_free]
      refine ⟨⟨?_, ?_, ?_⟩, fun N _ => two_le_pow N⟩
      · have := (andOpK_drift hi hf hg e K hK).1; omega
      · intro k hk
        exact ((andOpK_drift hi hf hg e K hK).2 k hk).imp_right fun h => Or.inl (by rw [h]; decide)
      · intro K' hK'
        have := (andOpK_drift hi hf hg e K' hK').1; omega
    have this : ¬ decide (h = f ∨ h = 0) = true := by simpa using hc2
    rw [if_neg this, if_neg this]
    rw [if_neg this] at e
    clear this
    by_cases hgh : g = h
    · rw [if_pos hgh, if_pos hgh]
      rw [if_pos hgh] at e
      exact leaf _ e
    rw [if_neg hgh, if_neg hgh]
    rw [if_neg hgh] at e
    have c3 : (do if ← isBot cfg g then isTop cfg h else (pure false : M Mgr Bool)) s = .ok (decide (g = 0 ∧ h = 1)) s := by
      rw [M.bind_ok (isBot_ok hi hg)]
      by_cases e : g = 0
      · simp only [e, decide_true, if_true, true_and]; exact isTop_ok hi hh
      · simp only [e, decide_false, if_false, false_and]; rfl
    rw [calls_of_bind c3, calls_of_bind c3]
    rw [M.bind_ok c3] at e
    by_cases hc3 : g = 0 ∧ h = 1
    · have this : decide (g = 0 ∧ h = 1) = true := by simpa using hc3
      rw [if_pos this, if_pos this]
      rw [if_pos this] at e
      obtain ⟨z0, hm⟩ := xorTop_free f2 0 e
      obtain ⟨z1, _⟩ := xorTop_free f2 1 e
      rw [z0, z1]
      obtain ⟨x, _, _⟩ := (xorTop_ok hi hf f2).ok_of e
      exact ⟨.keep 0 (by omega) hi x hm, fun N _ => two_le_pow N⟩
    have this : ¬ decide (g = 0 ∧ h = 1) = true := by simpa using hc3
    rw [if_neg this, if_neg this]
    rw [if_neg this] at e
    clear this
    have hlk := hi.lookup_find f g (cfg.addr h)
    rw [calls_of_bind hlk, calls_of_bind hlk]
    rw [M.bind_ok hlk] at e
    cases hfind : s.memo.find s.cells f g (cfg.addr h) with
    | some q =>
      rw [hfind] at e
      exact leaf _ e
    | none =>
    rw [hfind] at e
    simp only at e ⊢
    obtain ⟨fl, fh, htf, fl1, _, _, _⟩ := hf.inv f2
    have hfv := (hi.node f f2 fl1).1
    have b1 := varOf_ok hi hf f2
    have b2 := varOrBack_ok hi hg (by omega)
    have b3 := varOrBack_ok hi hh (by omega)
    rw [calls_of_bind b1, calls_of_bind b2, calls_of_bind b3, calls_of_bind b1, calls_of_bind b2, calls_of_bind b3]
    rw [M.bind_ok b1, M.bind_ok b2, M.bind_ok b3] at e
    generalize hvf : (s.cells f).index = vf at *
    generalize hvg : (if 2 ≤ g then (s.cells g).index else s.nvars - 1) = vg at *
    generalize hvh : (if 2 ≤ h then (s.cells h).index else s.nvars - 1) = vh at *
    generalize hv : min (min vf vg) vh = v at *
    have hvlef : v ≤ vf := by omega
    have hvleg : v ≤ vg := by omega
    have hvleh : v ≤ vh := by omega
    have hvn : v < s.nvars := by omega
    have inner : ∀ {p vp : Nat} {t : Tree}, Repr s.cells p t → (if 2 ≤ p then (s.cells p).index else s.nvars - 1) = vp → ((2 ≤ p → ∃ l h, t = .node vp l h)) := by
      intro p vp t hp hvp h2
      obtain ⟨l, h, e, _⟩ := hp.inv h2
      rw [if_pos h2] at hvp
      exact ⟨l, h, by rw [e, hvp]⟩
    have sinkLow : ∀ {p : Nat} {t : Tree}, Repr s.cells p t → ¬ 2 ≤ p → lowIf true p s = .ub := by
      intro p t hp h2
      have : p = 0 ∨ p = 1 := by omega
      have hidx : topsinkIndex ≤ (s.cells p).index := by
        rcases this with rfl | rfl
        · rw [hi.bot.1]; decide
        · rw [hi.top.1]; exact Nat.le_refl _
      show lowOf p s = .ub
      unfold lowOf
      rw [M.get_bind_apply, if_pos (by simp [hidx])]
      rfl
    obtain ⟨l1, hf0⟩ := lowIf_val' (c := vf == v) hf (fun _ => f2)
    rw [calls_of_bind l1, calls_of_bind l1]
    rw [M.bind_ok l1] at e
    have g2 : (vg == v) = true → 2 ≤ g := by
      intro hc
      refine Classical.byContradiction fun h2 => ?_
      obtain ⟨_, _, eb, _⟩ := bind_ok_inv e
      rw [hc, sinkLow hg h2] at eb
      cases eb
    obtain ⟨l2, hg0⟩ := lowIf_val' (c := vg == v) hg g2
    rw [calls_of_bind l2, calls_of_bind l2]
    rw [M.bind_ok l2] at e
    have h2' : (vh == v) = true → 2 ≤ h := by
      intro hc
      refine Classical.byContradiction fun h2 => ?_
      obtain ⟨_, _, eb, _⟩ := bind_ok_inv e
      rw [hc, sinkLow hh h2] at eb
      cases eb
    obtain ⟨l3, hh0⟩ := lowIf_val' (c := vh == v) hh h2'
    rw [calls_of_bind l3, calls_of_bind l3]
    rw [M.bind_ok l3] at e
    obtain ⟨_, hf1⟩ := highIf_val' (c := vf == v) hf (fun _ => f2)
    obtain ⟨_, hg1⟩ := highIf_val' (c := vg == v) hg g2
    obtain ⟨_, hh1⟩ := highIf_val' (c := vh == v) hh h2'
    have nodef : (vf == v) = true → ∃ l h, tf = .node v l h := by
      intro e
      have e : vf = v := by simpa using e
      exact ⟨fl, fh, by rw [htf, e]⟩
    have nodeg : (vg == v) = true → ∃ l h, tg = .node v l h := by
      intro e
      have e' : vg = v := by simpa using e
      obtain ⟨l, h, e2⟩ := inner hg hvg (g2 e)
      exact ⟨l, h, by rw [e2, e']⟩
    have nodeh : (vh == v) = true → ∃ l h, th = .node v l h := by
      intro e
      have e' : vh = v := by simpa using e
      obtain ⟨l, h, e2⟩ := inner hh hvh (h2' e)
      exact ⟨l, h, by rw [e2, e']⟩
    have hone : (vf == v) = true ∨ (vg == v) = true ∨ (vh == v) = true := by
      have : vf = v ∨ vg = v ∨ vh = v := by omega
      simpa using this
    have hlt : ∀ b, (cof (vf == v) b tf).height + (cof (vg == v) b tg).height + (cof (vh == v) b th).height < tf.height + tg.height + th.height := by
      intro b
      have a1 := cof_height_le (vf == v) b tf
      have a2 := cof_height_le (vg == v) b tg
      have a3 := cof_height_le (vh == v) b th
      rcases hone with e | e | e
      · obtain ⟨l, h, e2⟩ := nodef e
        rw [e] at a1 ⊢
        have := cof_height_lt (b := b) (v := v) (l := l) (h := h)
        rw [← e2] at this; omega
      · obtain ⟨l, h, e2⟩ := nodeg e
        rw [e] at a2 ⊢
        have := cof_height_lt (b := b) (v := v) (l := l) (h := h)
        rw [← e2] at this; omega
      · obtain ⟨l, h, e2⟩ := nodeh e
        rw [e] at a3 ⊢
        have := cof_height_lt (b := b) (v := v) (l := l) (h := h)
        rw [← e2] at this; omega
    have below : ∀ (c b : Bool) (p vp : Nat) (t : Tree), Repr s.cells p t →
        (if 2 ≤ p then (s.cells p).index else s.nvars - 1) = vp → v ≤ vp → (c = true ↔ v = vp) →
        md.ordered → ∀ w, (cof c b t).Mem w → v < w := by
      intro c b p vp t hp hvp hle hc hmd w hw
      by_cases h2 : 2 ≤ p
      · obtain ⟨l, h, e⟩ := inner hp hvp h2
        have ho := hi.ord hmd _ _ hp
        rw [e] at ho hw
        exact cof_lt ho hc hle hw
      · have : p = 0 ∨ p = 1 := by omega
        rcases this with rfl | rfl
        · cases Repr.bot_iff.1 hp; simp [cof, Tree.Mem] at hw
        · cases Repr.top_iff.1 hp; simp [cof, Tree.Mem] at hw
    have hff : (if 2 ≤ f then (s.cells f).index else s.nvars - 1) = vf := by rw [if_pos f2, hvf]
    have hbeq : ∀ a : Nat, ((a == v) = true ↔ v = a) := by
      intro a; simp; exact ⟨fun h => h.symm, fun h => h.symm⟩
    have hfit : ∀ b N, Fits md s.nvars N [tf, tg, th] → 0 < N ∧ Fits md s.nvars (N - 1) [cof (vf == v) b tf, cof (vg == v) b tg, cof (vh == v) b th] := by
      intro b N hN
      refine hN.split (v := v) (by have := hlt b; simp; omega) hvn ?_ ?_
      · rcases hone with e | e | e
        · obtain ⟨l, h, e2⟩ := nodef e; exact ⟨tf, by simp, by rw [e2]; exact Or.inl rfl⟩
        · obtain ⟨l, h, e2⟩ := nodeg e; exact ⟨tg, by simp, by rw [e2]; exact Or.inl rfl⟩
        · obtain ⟨l, h, e2⟩ := nodeh e; exact ⟨th, by simp, by rw [e2]; exact Or.inl rfl⟩
      · intro hmd t ht w hw
        simp only [List.mem_cons, List.not_mem_nil, or_false] at ht
        rcases ht with rfl | rfl | rfl
        · exact below _ _ _ _ _ hf hff hvlef (hbeq vf) hmd w hw
        · exact below _ _ _ _ _ hg hvg hvleg (hbeq vg) hmd w hw
        · exact below _ _ _ _ _ hh hvh hvleh (hbeq vh) hmd w hw
    have sub0 : ∀ {X : Nat → Prop} {c : Bool} {p : Nat}, Closed X s → X p → (c = true → 2 ≤ p) → X (if c then (s.cells p).lo else p) ∧ X (if c then (s.cells p).hi else p) := by
      intro X c p hX hp hc
      cases c with
      | false => exact ⟨hp, hp⟩
      | true => exact (hX p hp).2 (hc rfl)
    have A01 := sub0 (c := vf == v) cA hA (fun _ => f2)
    have B01 := sub0 (c := vg == v) cB hB g2
    have C01 := sub0 (c := vh == v) cC hC h2'
    obtain ⟨r0, s1, e3, e⟩ := bind_ok_inv e
    obtain ⟨x1, hi1, t0, hr0, _, hv0, k0, _⟩ := (iteRec_ok hs True n _ _ _ _ _ _ s hi hf0 hg0 hh0 (Or.inl trivial) (hfit false n hn).1 (hfit false n hn).2).ok_of e3
    obtain ⟨R0, E0⟩ := ih _ _ _ _ _ _ s r0 s1 hi hf0 hg0 hh0 (hfit false n hn).1 (hfit false n hn).2 cA cB cC A01.1 B01.1 C01.1 e3
    rw [calls_bind ((iteRecK_counts 1 0 n _ _ _).run e3), calls_bind ((iteRecK_counts 0 1 n _ _ _).run e3)]
    obtain ⟨u1, y1⟩ := highIf_val' (c := vf == v) (hf.ext x1.cells) (fun _ => f2)
    obtain ⟨u2, y2⟩ := highIf_val' (c := vg == v) (hg.ext x1.cells) g2
    obtain ⟨u3, y3⟩ := highIf_val' (c := vh == v) (hh.ext x1.cells) h2'
    have same : ∀ {c : Bool} {p : Nat} {t : Tree}, Repr s.cells p t → (if c then (s1.cells p).hi else p) = if c then (s.cells p).hi else p := by
      intro c p t hp
      rw [(x1.cells p (hi.live_of hp)).2.2.1]
    rw [same hf] at u1 y1
    rw [same hg] at u2 y2
    rw [same hh] at u3 y3
    rw [calls_of_bind u1, calls_of_bind u2, calls_of_bind u3, calls_of_bind u1, calls_of_bind u2, calls_of_bind u3]
    rw [M.bind_ok u1, M.bind_ok u2, M.bind_ok u3] at e
    obtain ⟨r1, s2, e4, e⟩ := bind_ok_inv e
    have hn1 : 0 < n ∧ Fits md s1.nvars (n - 1) [cof (vf == v) true tf, cof (vg == v) true tg, cof (vh == v) true th] := by rw [x1.nvars]; exact hfit true n hn
    obtain ⟨x2, hi2, t1, hr1, _, hv1, k1, _⟩ := (iteRec_ok hs True n _ _ _ _ _ _ s1 hi1 y1 y2 y3 (Or.inl trivial) hn1.1 hn1.2).ok_of e4
    obtain ⟨R1, E1⟩ := ih _ _ _ _ _ _ s1 r1 s2 hi1 y1 y2 y3 hn1.1 hn1.2 (cA.ext x1) (cB.ext x1) (cC.ext x1) A01.2 B01.2 C01.2 e4
    rw [calls_bind ((iteRecK_counts 1 0 n _ _ _).run e4), calls_bind ((iteRecK_counts 0 1 n _ _ _).run e4)]
    obtain ⟨q, s3, e5, e⟩ := bind_ok_inv e
    obtain ⟨⟨⟩, s4, e6, e⟩ := bind_ok_inv e
    cases e
    have hord : md.ordered → ∀ w, t0.Mem w ∨ t1.Mem w → v < w := by
      intro hmd w hw
      rcases hw with hw | hw
      · rcases hv0 w hw with h | h | h
        · exact below _ _ _ _ _ hf hff hvlef (hbeq vf) hmd w h
        · exact below _ _ _ _ _ hg hvg hvleg (hbeq vg) hmd w h
        · exact below _ _ _ _ _ hh hvh hvleh (hbeq vh) hmd w h
      · rcases hv1 w hw with h | h | h
        · exact below _ _ _ _ _ hf hff hvlef (hbeq vf) hmd w h
        · exact below _ _ _ _ _ hg hvg hvleg (hbeq vg) hmd w h
        · exact below _ _ _ _ _ hh hvh hvleh (hbeq vh) hmd w h
    obtain ⟨x3, hi3, hr, _⟩ := (uniqueFind_spec hi2 (by rw [x2.nvars, x1.nvars]; exact hvn) (hr0.ext x2.cells) hr1 hord).ok_of e5
    have x123 := (x1.trans x2).trans x3
    have x4 : Ext s3 s' := by
      rw [cacheInsert_state e6]
      exact ⟨.refl _, rfl, Nat.le_refl _⟩
    rw [calls_of_bind e5, calls_of_bind e5, calls_bind ((cacheInsertK_counts 0 f g (cfg.addr h) r).run e6), calls_bind ((cacheInsertK_counts 1 f g (cfg.addr h) r).run e6)]
    unfold cacheInsertK
    rw [calls_of_bind (m := M.get) (s' := s3) (a := s3) rfl, calls_of_bind (m := M.get) (s' := s3) (a := s3) rfl, calls_ticks, calls_of, calls_pure,
      calls_ticks]
    have m3 : s3.memo = s2.memo := (uniqueFind_mmk v r0 r1).at' _ _ _ e5
    have n2 : ¬ Has s2 (f, g, cfg.addr h) := by
      intro hh'
      rcases R1.old _ hh' with hh' | hh'
      · rcases R0.old _ hh' with hh' | hh'
        · unfold Has at hh'
          rw [hfind] at hh'
          cases hh'
        · exact hh'.absurd (hf.ext x1.cells) (hg.ext x1.cells) (hh.ext x1.cells) (hlt false)
      · exact hh'.absurd (hf.ext (x1.trans x2).cells) (hg.ext (x1.trans x2).cells) (hh.ext (x1.trans x2).cells) (hlt true)
    have n3 : ¬ Has s3 (f, g, cfg.addr h) := fun h => n2 ((x3.has_iff hi2 m3 _).1 h)
    have hgain := insert_gain hi3.placed hK (hk f g h hA hB hC f2) n3 e6
    rw [x3.held_eq hi2 m3] at hgain
    have lt0 := hlt false
    have lt1 := hlt true
    refine ⟨⟨?_, ?_, ?_⟩, ?_⟩
    · have h0 := R0.amort
      have h1 := R1.amort
      omega
    · intro k h'
      rcases (insert_has hi3.placed e6).2.1 k h' with h' | rfl
      · rcases R1.old _ ((x3.has_iff hi2 m3 _).1 h') with h' | h'
        · rcases R0.old _ h' with h' | h'
          · exact Or.inl h'
          · exact Or.inr (h'.mono ((x2.trans x3).trans x4) (by omega))
        · exact Or.inr (h'.mono (x3.trans x4) (by omega))
      · exact Or.inr (Or.inr ⟨h, tf, tg, th, rfl, hf.ext (x123.trans x4).cells, hg.ext (x123.trans x4).cells, hh.ext (x123.trans x4).cells, Nat.le_refl _⟩)
    · intro K' hK'
      have h0 := R0.drift K' hK'
      have h1 := R1.drift K' hK'
      have h3 := insert_held hi3.placed hK' e6
      rw [x3.held_eq hi2 m3] at h3
      omega
    · intro N hN
      obtain ⟨p0, p1⟩ := hfit false N hN
      obtain ⟨_, p2⟩ := hfit true N hN
      have h0 := E0 _ p1
      have h1 := E1 _ (by rw [x1.nvars]; exact p2)
      have : N + 1 = (N - 1 + 1) + 1 := by omega
      rw [this, Nat.pow_succ]
      omega

theorem keysOf3_lists {f g h : Nat} {lf lg lh : List Nat} (hlf : ∀ q, 2 ≤ q → Reaches s.cells f q → q ∈ lf) (hlg : ∀ q, 2 ≤ q → Reaches s.cells g q → q ∈ lg)
    (hlh : ∀ q, 2 ≤ q → Reaches s.cells h q → q ∈ lh) :
    ∃ K : List Key, K.Nodup ∧ K.length ≤ lf.length * ((lg.length + 2) * (lh.length + 2)) ∧
      KeysOf3 cfg K (fun q => Reaches s.cells f q) (fun q => Reaches s.cells g q) (fun q => Reaches s.cells h q) := by
  obtain ⟨K, h1, h2, h3⟩ := exists_nodup (lf.flatMap fun x => (0 :: 1 :: lg).flatMap fun y => (0 :: 1 :: lh).map fun z => ((x, y, cfg.addr z) : Key))
  refine ⟨K, h1, ?_, ?_⟩
  · refine Nat.le_trans h2 (Nat.le_of_eq ?_)
    rw [List.length_flatMap]
    simp only [List.length_flatMap, List.length_map]
    rw [List.map_const', List.sum_replicate_nat, List.map_const', List.sum_replicate_nat]
    rfl
  · intro x y z hx hy hz x2
    have all : ∀ {l : List Nat} {p q : Nat}, (∀ q, 2 ≤ q → Reaches s.cells p q → q ∈ l) → Reaches s.cells p q → q ∈ 0 :: 1 :: l := by
      intro l p q hl hq
      by_cases q2 : 2 ≤ q
      · simp [hl q q2 hq]
      · have : q = 0 ∨ q = 1 := by omega
        rcases this with rfl | rfl <;> simp
    exact h3 _ (List.mem_flatMap.2 ⟨x, hlf x x2 hx, List.mem_flatMap.2 ⟨y, all hlg hy, List.mem_map.2 ⟨z, all hlh hz, rfl⟩⟩⟩)
end
end LBDD
