import Verif.Spec.Cost
import Verif.Proof.Ops
/-! Counting recursive calls: erasing the counter, the calls of `negate` and of the traversals. -/
namespace LBDD

section
variable {σ α β : Type}

theorem Counts.bind {mk : MK σ α} {m : M σ α} {fk : α → MK σ β} {f : α → M σ β} (h : Counts mk m) (hf : ∀ a, Counts (fk a) (f a)) :
    Counts (mk >>= fk) (m >>= f) := by
  intro s
  show (MK.bind mk fk s).1 = M.bind m f s
  unfold MK.bind M.bind
  rw [← h s]
  generalize mk s = r
  obtain ⟨o, k⟩ := r
  cases o with
  | ok a s' => exact hf a s'
  | _ => rfl

theorem Counts.of (m : M σ α) : Counts (.of m) m := fun _ => rfl
theorem Counts.pure (a : α) : Counts (pure a : MK σ α) (pure a : M σ α) := fun _ => rfl
theorem Counts.tick {fk : Unit → MK σ β} {f : M σ β} (h : Counts (fk ()) f) : Counts (MK.tick >>= fk) f := fun s => h s
theorem Counts.ite {p : Prop} [Decidable p] {m1 m2 : MK σ α} {n1 n2 : M σ α} (h1 : Counts m1 n1) (h2 : Counts m2 n2) :
    Counts (if p then m1 else m2) (if p then n1 else n2) := by
  split
  · exact h1
  · exact h2

theorem Counts.run {mk : MK σ α} {m : M σ α} (h : Counts mk m) {s s' : σ} {a : α} (e : m s = .ok a s') : (mk s).1 = .ok a s' := (h s).trans e

/-- Calls of a sequence. -/
theorem calls_bind {mk : MK σ α} {fk : α → MK σ β} {s s' : σ} {a : α} (h : (mk s).1 = .ok a s') :
    (mk >>= fk).calls s = mk.calls s + (fk a).calls s' := by
  unfold MK.calls
  show (MK.bind mk fk s).2 = _
  unfold MK.bind
  revert h
  generalize mk s = r
  obtain ⟨o, k⟩ := r
  intro h
  have h : o = .ok a s' := h
  subst h
  rfl

theorem calls_of_bind {m : M σ α} {fk : α → MK σ β} {s s' : σ} {a : α} (h : m s = .ok a s') : (MK.of m >>= fk).calls s = (fk a).calls s' := by
  rw [calls_bind (mk := .of m) (s' := s') (a := a) h]
  show 0 + _ = _
  omega

theorem calls_tick {fk : Unit → MK σ β} {s : σ} : (MK.tick >>= fk).calls s = 1 + (fk ()).calls s := calls_bind (mk := MK.tick) rfl
theorem calls_pure {a : α} {s : σ} : (pure a : MK σ α).calls s = 0 := rfl
theorem calls_of {m : M σ α} {s : σ} : (MK.of m).calls s = 0 := rfl

/-- The first part of a sequence that returns. -/
theorem calls_seq {mk : MK σ α} {m : M σ α} {fk : α → MK σ β} {f : α → M σ β} (h : Counts mk m) {s s' : σ} {b : β} (e : (m >>= f) s = .ok b s') :
    ∃ a s1, m s = .ok a s1 ∧ f a s1 = .ok b s' ∧ (mk >>= fk).calls s = mk.calls s + (fk a).calls s1 := by
  obtain ⟨a, s1, e1, e2⟩ := bind_ok_inv e
  exact ⟨a, s1, e1, e2, calls_bind (h.run e1)⟩
end

section
variable {cfg : Cfg} {md : Md} {refs : Nat → Nat} {s : Mgr}

theorem args2K_counts {k1 k2 : MK Mgr Nat} {m1 m2 : M Mgr Nat} (h1 : Counts k1 m1) (h2 : Counts k2 m2) : Counts (args2K cfg k1 k2) (args2 cfg m1 m2) := by
  unfold args2K args2
  exact .ite (.bind h2 fun _ => .bind h1 fun _ => .pure _) (.bind h1 fun _ => .bind h2 fun _ => .pure _)

theorem negateRecK_counts : ∀ n p, Counts (negateRecK cfg n p) (negateRec cfg n p)
  | 0, _ => .of _
  | n + 1, p => by
    unfold negateRecK negateRec
    exact .tick (.bind (.of _) fun _ => .ite (.pure _) (.bind (.of _) fun _ => .ite (.pure _) (.bind (.of _) fun s => .bind (.of _) fun _ =>
      .bind (args2K_counts (.bind (.of _) fun _ => negateRecK_counts n _) (.bind (.of _) fun _ => negateRecK_counts n _)) fun _ => .of _)))

theorem negateRecK_calls : ∀ (n p : Nat) (t : Tree) (s : Mgr) (r : Nat) (s' : Mgr), Inv cfg md refs s → Repr s.cells p t → t.height + 1 ≤ n →
    negateRec cfg n p s = .ok r s' → (negateRecK cfg n p).calls s = 2 * t.size + 1 := by
  intro n
  induction n with
  | zero => intro p t s r s' _ _ h; omega
  | succ n ih =>
    intro p t s r s' hi hp hn e
    unfold negateRecK
    unfold negateRec at e
    rw [calls_tick, calls_of_bind (isBot_ok hi hp)]
    rw [M.bind_ok (isBot_ok hi hp)] at e
    by_cases h0 : p = 0
    · subst h0
      cases Repr.bot_iff.1 hp
      rfl
    rw [if_neg (by simpa using h0)] at e ⊢
    rw [calls_of_bind (isTop_ok hi hp)]
    rw [M.bind_ok (isTop_ok hi hp)] at e
    by_cases h1 : p = 1
    · subst h1
      cases Repr.top_iff.1 hp
      rfl
    rw [if_neg (by simpa using h1)] at e ⊢
    have h2 : 2 ≤ p := by omega
    obtain ⟨tl, th, ht, hl, _, hlo, hhi⟩ := hp.inv h2
    have hv := (hi.node p h2 hl).1
    rw [M.get_bind_apply, M.assert_bind_apply (by simpa using hv)] at e
    rw [calls_of_bind (m := M.get) (s' := s) (a := s) rfl, calls_of_bind (m := M.assert cfg.ndebug (decide ((s.cells p).index < s.nvars))) (s' := s) (a := ()) (by unfold M.assert; simp [hv])]
    have hht : tl.height + 1 ≤ n ∧ th.height + 1 ≤ n := by
      rw [ht] at hn; simp only [Tree.height] at hn; omega
    obtain ⟨ab, s2, e1, e2⟩ := bind_ok_inv e
    have hc : Counts (args2K cfg (do let l ← .of (lowOf p); negateRecK cfg n l) (do let h ← .of (highOf p); negateRecK cfg n h))
        (args2 cfg (do let l ← lowOf p; negateRec cfg n l) (do let h ← highOf p; negateRec cfg n h)) :=
      args2K_counts (.bind (.of _) fun _ => negateRecK_counts n _) (.bind (.of _) fun _ => negateRecK_counts n _)
    rw [calls_bind (hc.run e1), calls_of, Nat.add_zero]
    -- the two halves, from any later state
    have lo : ∀ s1 r1 s1', Ext s s1 → Inv cfg md refs s1 → (do let l ← lowOf p; negateRec cfg n l : M Mgr Nat) s1 = .ok r1 s1' →
        (do let l ← .of (lowOf p); negateRecK cfg n l : MK Mgr Nat).calls s1 = 2 * tl.size + 1 ∧ Ext s1 s1' ∧ Inv cfg md refs s1' := by
      intro s1 r1 s1' x1 hi1 ee
      obtain ⟨_, g1, _⟩ := x1.cells p hl
      have hlow := lowOf_ok (hp.ext x1.cells) h2
      rw [calls_of_bind hlow]
      rw [M.bind_ok hlow, g1] at ee
      rw [g1]
      have hsp := negateRec_ok n _ tl s1 hi1 (hlo.ext x1.cells) hht.1
      unfold Spec M.Sat at hsp
      rw [ee] at hsp
      exact ⟨ih _ tl s1 _ _ hi1 (hlo.ext x1.cells) hht.1 ee, hsp.1, hsp.2.1⟩
    have hi' : ∀ s1 r1 s1', Ext s s1 → Inv cfg md refs s1 → (do let l ← highOf p; negateRec cfg n l : M Mgr Nat) s1 = .ok r1 s1' →
        (do let l ← .of (highOf p); negateRecK cfg n l : MK Mgr Nat).calls s1 = 2 * th.size + 1 ∧ Ext s1 s1' ∧ Inv cfg md refs s1' := by
      intro s1 r1 s1' x1 hi1 ee
      obtain ⟨_, _, g1, _⟩ := x1.cells p hl
      have hhigh := highOf_ok (hp.ext x1.cells) h2
      rw [calls_of_bind hhigh]
      rw [M.bind_ok hhigh, g1] at ee
      rw [g1]
      have hsp := negateRec_ok n _ th s1 hi1 (hhi.ext x1.cells) hht.2
      unfold Spec M.Sat at hsp
      rw [ee] at hsp
      exact ⟨ih _ th s1 _ _ hi1 (hhi.ext x1.cells) hht.2 ee, hsp.1, hsp.2.1⟩
    have hcl : Counts (do let l ← .of (lowOf p); negateRecK cfg n l : MK Mgr Nat) (do let l ← lowOf p; negateRec cfg n l : M Mgr Nat) :=
      .bind (.of _) fun _ => negateRecK_counts n _
    have hch : Counts (do let l ← .of (highOf p); negateRecK cfg n l : MK Mgr Nat) (do let l ← highOf p; negateRec cfg n l : M Mgr Nat) :=
      .bind (.of _) fun _ => negateRecK_counts n _
    rw [ht]
    simp only [Tree.size]
    unfold args2 at e1
    unfold args2K
    split at e1
    · rename_i hr
      rw [if_pos hr]
      obtain ⟨b, s3, f1, f2⟩ := bind_ok_inv e1
      obtain ⟨a, s4, f3, f4⟩ := bind_ok_inv f2
      obtain ⟨q1, q2, q3⟩ := hi' s b s3 (.refl _) hi f1
      obtain ⟨p1, _, _⟩ := lo s3 a s4 q2 q3 f3
      rw [calls_bind (hch.run f1), calls_bind (hcl.run f3), calls_pure]
      omega
    · rename_i hr
      rw [if_neg hr]
      obtain ⟨b, s3, f1, f2⟩ := bind_ok_inv e1
      obtain ⟨a, s4, f3, f4⟩ := bind_ok_inv f2
      obtain ⟨q1, q2, q3⟩ := lo s b s3 (.refl _) hi f1
      obtain ⟨p1, _, _⟩ := hi' s3 a s4 q2 q3 f3
      rw [calls_bind (hcl.run f1), calls_bind (hch.run f3), calls_pure]
      omega

theorem negateOpK_counts (p : Nat) : Counts (negateOpK cfg p) (negateOp cfg p) := .bind (.of _) fun _ => negateRecK_counts _ _

/-! ## Traversals -/

theorem ifUnmarkedK_counts {k : Nat → MK Mgr (List Nat)} {m : Nat → M Mgr (List Nat)} (h : ∀ q, Counts (k q) (m q)) (q : Nat) :
    Counts (ifUnmarkedK k q) (ifUnmarked m q) := .bind (.of _) fun _ => .ite (.pure _) (h q)

theorem visitK_counts {post : Bool} : ∀ n p, Counts (visitK cfg post n p) (visit cfg post n p)
  | 0, _ => .of _
  | n + 1, p => by
    unfold visitK visit
    exact .tick (.bind (.of _) fun _ => .ite (.pure _) (.bind (.of _) fun _ => .bind (.of _) fun _ => .bind (.of _) fun _ => .bind (.of _) fun _ =>
      .bind (ifUnmarkedK_counts (visitK_counts n) _) fun _ => .bind (.of _) fun _ => .bind (ifUnmarkedK_counts (visitK_counts n) _) fun _ => .pure _))

theorem unmarkK_counts : ∀ n p, Counts (unmarkK cfg n p) (unmark cfg n p)
  | 0, _ => .of _
  | n + 1, p => by
    unfold unmarkK unmark
    exact .tick (.bind (.of _) fun _ => .ite (.pure _) (.bind (.of _) fun _ => .ite (.bind (.of _) fun _ => .bind (.of _) fun _ =>
      .bind (unmarkK_counts n _) fun _ => .bind (.of _) fun _ => unmarkK_counts n _) (.pure _)))

theorem nrNodesK_counts (p : Nat) : Counts (nrNodesK cfg p) (nrNodes cfg p) :=
  .bind (.of _) fun _ => .bind (.of _) fun _ => .bind (.of _) fun _ => .bind (visitK_counts _ _) fun _ => .bind (unmarkK_counts _ _) fun _ => .pure _

/-- Calls of a traversal: at most two per visited node, plus one. -/
theorem visitK_calls {post : Bool} : ∀ (n p : Nat) (s : Mgr) (l : List Nat) (s' : Mgr), visit cfg post n p s = .ok l s' →
    (visitK cfg post n p).calls s ≤ 2 * l.length + 1 := by
  intro n
  induction n with
  | zero => intro p s l s' e; cases e
  | succ n ih =>
    intro p s l s' e
    unfold visitK
    unfold visit at e
    rw [calls_tick]
    obtain ⟨b, s1, e1, e⟩ := bind_ok_inv e
    rw [calls_of_bind e1]
    split at e
    · rename_i hb
      rw [if_pos hb, calls_pure]; omega
    · rename_i hb
      rw [if_neg hb]
      obtain ⟨m, s2, e2, e⟩ := bind_ok_inv e
      obtain ⟨_, s3, e3, e⟩ := bind_ok_inv e
      obtain ⟨_, s4, e4, e⟩ := bind_ok_inv e
      obtain ⟨lo, s5, e5, e⟩ := bind_ok_inv e
      rw [calls_of_bind e2, calls_of_bind e3, calls_of_bind e4, calls_of_bind e5]
      obtain ⟨a, s6, e6, e⟩ := bind_ok_inv e
      obtain ⟨hi, s7, e7, e⟩ := bind_ok_inv e
      obtain ⟨b, s8, e8, e⟩ := bind_ok_inv e
      have hu : ∀ (q : Nat) (s : Mgr) (l : List Nat) (s' : Mgr), ifUnmarked (visit cfg post n) q s = .ok l s' →
          (ifUnmarkedK (visitK cfg post n) q).calls s ≤ 2 * l.length + 1 := by
        intro q s l s' e
        unfold ifUnmarked at e
        unfold ifUnmarkedK
        obtain ⟨b, s1, e1, e⟩ := bind_ok_inv e
        rw [calls_of_bind e1]
        split at e
        · rename_i hb
          rw [if_pos hb, calls_pure]; omega
        · rename_i hb
          rw [if_neg hb]
          exact ih q s1 l s' e
      rw [calls_bind ((ifUnmarkedK_counts (visitK_counts n) _).run e6), calls_of_bind e7, calls_bind ((ifUnmarkedK_counts (visitK_counts n) _).run e8), calls_pure]
      have h1 := hu _ _ _ _ e6
      have h2 := hu _ _ _ _ e8
      have h3 : l.length = a.length + b.length + 1 := by
        cases e
        split <;> simp [Nat.add_assoc]
      omega
end
end LBDD
