import Verif.Spec.Coll
import Verif.Proof.Tree
/-! Unfolding positions of an instruction vector into decision trees. -/
namespace LBDD

theorem cBot_lt_cTop : cBot < cTop := by decide
theorem cBot_ne_cTop : cBot ≠ cTop := by decide

theorem Instr.inner_of_lt {e : Instr} (h : e.index < cBot) : e.Inner :=
  ⟨Nat.ne_of_lt h, Nat.ne_of_lt (Nat.lt_trans h cBot_lt_cTop)⟩

/-- Position `i` of `ins` unfolds to the tree `t`. -/
inductive CRepr (ins : List Instr) : Nat → Tree → Prop
  | bot {i e} : ins[i]? = some e → e.index = cBot → CRepr ins i .bot
  | top {i e} : ins[i]? = some e → e.index = cTop → CRepr ins i .top
  | node {i e tl th} : ins[i]? = some e → e.Inner → CRepr ins e.lo tl → CRepr ins e.hi th → CRepr ins i (.node e.index tl th)

theorem CRepr.unique {ins : List Instr} {i : Nat} {t t' : Tree} (h : CRepr ins i t) (h' : CRepr ins i t') : t = t' := by
  induction h generalizing t' with
  | bot h1 h2 =>
    cases h' with
    | bot => rfl
    | top g1 g2 => rw [h1] at g1; cases g1; rw [h2] at g2; exact absurd g2 cBot_ne_cTop
    | node g1 g2 _ _ => rw [h1] at g1; cases g1; exact absurd h2 g2.1
  | top h1 h2 =>
    cases h' with
    | top => rfl
    | bot g1 g2 => rw [h1] at g1; cases g1; rw [h2] at g2; exact absurd g2.symm cBot_ne_cTop
    | node g1 g2 _ _ => rw [h1] at g1; cases g1; exact absurd h2 g2.2
  | node h1 h2 _ _ ih1 ih2 =>
    cases h' with
    | bot g1 g2 => rw [h1] at g1; cases g1; exact absurd g2 h2.1
    | top g1 g2 => rw [h1] at g1; cases g1; exact absurd g2 h2.2
    | node g1 g2 g3 g4 => rw [h1] at g1; cases g1; rw [ih1 g3, ih2 g4]

theorem CRepr.inv {ins : List Instr} {i : Nat} {t : Tree} {e : Instr} (h : CRepr ins i t) (he : ins[i]? = some e) (hi : e.Inner) :
    ∃ tl th, t = .node e.index tl th ∧ CRepr ins e.lo tl ∧ CRepr ins e.hi th := by
  cases h with
  | bot g1 g2 => rw [he] at g1; cases g1; exact absurd g2 hi.1
  | top g1 g2 => rw [he] at g1; cases g1; exact absurd g2 hi.2
  | node g1 g2 g3 g4 => rw [he] at g1; cases g1; exact ⟨_, _, rfl, g3, g4⟩

/-- Rename the variables of a tree. -/
def Tree.ren (ρ : Nat → Nat) : Tree → Tree
  | .bot => .bot
  | .top => .top
  | .node v l h => .node (ρ v) (l.ren ρ) (h.ren ρ)

theorem Tree.ren_id (t : Tree) : t.ren (fun v => v) = t := by
  induction t with
  | bot => rfl
  | top => rfl
  | node v l h ih1 ih2 => simp [Tree.ren, ih1, ih2]

theorem Tree.eval_ren (ρ : Nat → Nat) (t : Tree) (x : Assign) : (t.ren ρ).eval x = t.eval (fun v => x (ρ v)) := by
  induction t with
  | bot => rfl
  | top => rfl
  | node v l h ih1 ih2 => simp [Tree.ren, Tree.eval, ih1, ih2]

theorem Tree.height_ren (ρ : Nat → Nat) (t : Tree) : (t.ren ρ).height = t.height := by
  induction t with
  | bot => rfl
  | top => rfl
  | node v l h ih1 ih2 => simp [Tree.ren, Tree.height, ih1, ih2]

theorem Tree.mem_ren (ρ : Nat → Nat) (t : Tree) (w : Nat) : (t.ren ρ).Mem w ↔ ∃ v, t.Mem v ∧ ρ v = w := by
  induction t with
  | bot => simp [Tree.ren, Tree.Mem]
  | top => simp [Tree.ren, Tree.Mem]
  | node v l h ih1 ih2 =>
    simp only [Tree.ren, Tree.Mem, ih1, ih2]
    constructor
    · rintro (rfl | ⟨u, h1, h2⟩ | ⟨u, h1, h2⟩)
      · exact ⟨v, Or.inl rfl, rfl⟩
      · exact ⟨u, Or.inr (Or.inl h1), h2⟩
      · exact ⟨u, Or.inr (Or.inr h1), h2⟩
    · rintro ⟨u, rfl | h1 | h1, h2⟩
      · exact Or.inl h2.symm
      · exact Or.inr (Or.inl ⟨u, h1, h2⟩)
      · exact Or.inr (Or.inr ⟨u, h1, h2⟩)

/-- Copying instructions to other positions and renaming variables: what a position unfolds to is renamed. `P` is a set of positions
closed under arcs. -/
theorem CRepr.map {ins ins' : List Instr} (P : Nat → Prop) (σ ρ : Nat → Nat)
    (hsink : ∀ i e, P i → ins[i]? = some e → ¬ e.Inner → ∃ e', ins'[σ i]? = some e' ∧ e'.index = e.index)
    (hnode : ∀ i e, P i → ins[i]? = some e → e.Inner →
      P e.lo ∧ P e.hi ∧ ∃ e', ins'[σ i]? = some e' ∧ e'.Inner ∧ e'.index = ρ e.index ∧ e'.lo = σ e.lo ∧ e'.hi = σ e.hi)
    {i : Nat} {t : Tree} (h : CRepr ins i t) (hp : P i) : CRepr ins' (σ i) (t.ren ρ) := by
  induction h with
  | bot h1 h2 =>
    obtain ⟨e', a, b⟩ := hsink _ _ hp h1 (fun h => h.1 h2)
    exact .bot a (b.trans h2)
  | top h1 h2 =>
    obtain ⟨e', a, b⟩ := hsink _ _ hp h1 (fun h => h.2 h2)
    exact .top a (b.trans h2)
  | node h1 h2 _ _ ih1 ih2 =>
    obtain ⟨p1, p2, e', a, b, c, d, f⟩ := hnode _ _ hp h1 h2
    have k1 := ih1 p1
    have k2 := ih2 p2
    rw [← d] at k1
    rw [← f] at k2
    have := CRepr.node a b k1 k2
    rw [c] at this
    exact this

/-- A copy of the vector that agrees on a closed set of positions. -/
theorem CRepr.congr {ins ins' : List Instr} (P : Nat → Prop)
    (hsame : ∀ i, P i → ins'[i]? = ins[i]?)
    (hcl : ∀ i e, P i → ins[i]? = some e → e.Inner → P e.lo ∧ P e.hi)
    {i : Nat} {t : Tree} (h : CRepr ins i t) (hp : P i) : CRepr ins' i t := by
  have := CRepr.map (ins := ins) (ins' := ins') P (fun i => i) (fun v => v)
    (fun i e hp he _ => ⟨e, by rw [hsame i hp]; exact he, rfl⟩)
    (fun i e hp he hin => ⟨(hcl i e hp he hin).1, (hcl i e hp he hin).2, e, by rw [hsame i hp]; exact he, hin, rfl, rfl, rfl⟩) h hp
  rwa [Tree.ren_id] at this

theorem CRepr.append {ins : List Instr} (l : List Instr) {i : Nat} {t : Tree} (h : CRepr ins i t) : CRepr (ins ++ l) i t := by
  have key : ∀ (j : Nat) (e : Instr), ins[j]? = some e → (ins ++ l)[j]? = some e := by
    intro j e he
    rw [List.getElem?_append_left (by rcases Nat.lt_or_ge j ins.length with h | h; exact h; rw [List.getElem?_eq_none h] at he; cases he)]
    exact he
  induction h with
  | bot h1 h2 => exact .bot (key _ _ h1) h2
  | top h1 h2 => exact .top (key _ _ h1) h2
  | node h1 h2 _ _ ih1 ih2 => exact .node (key _ _ h1) h2 ih1 ih2

/-- `evaluate` follows the unfolding. -/
theorem cEvalLoop_ok {cfg : Cfg} {c : Coll} {x : List Bool} {i : Nat} {t : Tree} (h : CRepr c.ins i t) (hx : ∀ v, t.Mem v → v < x.length) :
    ∀ n, t.height < n → cEvalLoop cfg c x n i = .ok (t.eval (fun v => x.getD v false)) () := by
  induction h with
  | bot h1 h2 =>
    intro n hn
    obtain ⟨n, rfl⟩ : ∃ m, n = m + 1 := ⟨n - 1, by omega⟩
    have : ¬ (cBot = cTop) := cBot_ne_cTop
    simp [cEvalLoop, h1, Instr.isTop, Instr.isBot, h2, this, Tree.eval]
  | top h1 h2 =>
    intro n hn
    obtain ⟨n, rfl⟩ : ∃ m, n = m + 1 := ⟨n - 1, by omega⟩
    simp [cEvalLoop, h1, Instr.isTop, h2, Tree.eval]
  | @node i e tl th h1 h2 _ _ ih1 ih2 =>
    intro n hn
    obtain ⟨n, rfl⟩ : ∃ m, n = m + 1 := ⟨n - 1, by omega⟩
    have hv : e.index < x.length := hx _ (Or.inl rfl)
    simp only [Tree.height] at hn
    have k1 := ih1 (fun v hv => hx v (Or.inr (Or.inl hv))) n (by omega)
    have k2 := ih2 (fun v hv => hx v (Or.inr (Or.inr hv))) n (by omega)
    unfold cEvalLoop
    simp only [h1, Instr.isTop, Instr.isBot, beq_iff_eq, h2.1, h2.2, if_false, List.getElem?_eq_getElem hv]
    cases hb : x[e.index] with
    | true => simp only [k2, Tree.eval, List.getD_eq_getElem?_getD, List.getElem?_eq_getElem hv, hb, Option.getD_some, if_true]
    | false => simp [k1, Tree.eval, List.getD_eq_getElem?_getD, List.getElem?_eq_getElem hv, hb]

section
variable {ins : List Instr} {d0 d1 : Nat}

theorem WfRange.len (h : WfRange ins d0 d1) : d1 ≤ ins.length := by
  obtain ⟨a, b, _, hb, _⟩ := h.sinks
  have := h.two
  rcases Nat.lt_or_ge (d1 - 1) ins.length with h | h
  · omega
  · rw [List.getElem?_eq_none h] at hb; cases hb

/-- Position `i` of the range is one of the sinks or an inner node. -/
theorem WfRange.cases (h : WfRange ins d0 d1) {i : Nat} (h0 : d0 ≤ i) (h1 : i < d1) :
    ∃ e, ins[i]? = some e ∧
      ((i + 2 < d1 ∧ e.index < cBot ∧ e.lo ≠ e.hi ∧ i < e.lo ∧ e.lo < d1 ∧ i < e.hi ∧ e.hi < d1) ∨
       (d1 ≤ i + 2 ∧ e.lo = e.hi ∧ (e.index = cBot ∨ e.index = cTop))) := by
  by_cases hi : i + 2 < d1
  · obtain ⟨e, a, b⟩ := h.inner i h0 hi
    exact ⟨e, a, Or.inl ⟨hi, b⟩⟩
  · obtain ⟨a, b, ha, hb, h2, h3, h4⟩ := h.sinks
    have hd : i = d1 - 2 ∨ i = d1 - 1 := by omega
    rcases hd with rfl | rfl
    · exact ⟨a, ha, Or.inr ⟨by omega, h2, by rcases h4 with h | h; exact Or.inl h.1; exact Or.inr h.1⟩⟩
    · exact ⟨b, hb, Or.inr ⟨by omega, h3, by rcases h4 with h | h; exact Or.inr h.2; exact Or.inl h.2⟩⟩

theorem WfRange.inner_iff (h : WfRange ins d0 d1) {i : Nat} {e : Instr} (h0 : d0 ≤ i) (h1 : i < d1) (he : ins[i]? = some e) :
    (e.Inner ↔ i + 2 < d1) ∧ (e.isTerm = true ↔ d1 ≤ i + 2) := by
  obtain ⟨e', a, b⟩ := h.cases h0 h1
  rw [he] at a; cases a
  rcases b with ⟨b1, b2, b3, _⟩ | ⟨b1, b2, b3⟩
  · refine ⟨⟨fun _ => b1, fun _ => Instr.inner_of_lt b2⟩, ?_⟩
    unfold Instr.isTerm
    simp only [beq_iff_eq, b3, false_iff]; omega
  · refine ⟨⟨fun hin => ?_, fun hh => by omega⟩, ?_⟩
    · rcases b3 with b3 | b3
      · exact absurd b3 hin.1
      · exact absurd b3 hin.2
    · unfold Instr.isTerm
      simp only [beq_iff_eq, b2, true_iff]; exact b1

theorem WfRange.node (h : WfRange ins d0 d1) {i : Nat} {e : Instr} (h0 : d0 ≤ i) (h1 : i < d1) (he : ins[i]? = some e) (hin : e.Inner) :
    i + 2 < d1 ∧ e.index < cBot ∧ e.lo ≠ e.hi ∧ i < e.lo ∧ e.lo < d1 ∧ i < e.hi ∧ e.hi < d1 := by
  obtain ⟨e', a, b⟩ := h.cases h0 h1
  rw [he] at a; cases a
  rcases b with b | ⟨b1, b2, b3⟩
  · exact b
  · rcases b3 with b3 | b3
    · exact absurd b3 hin.1
    · exact absurd b3 hin.2

/-- Every position of a well-formed range unfolds to a tree. -/
theorem WfRange.exists (h : WfRange ins d0 d1) : ∀ (k i : Nat), d1 - i = k → d0 ≤ i → i < d1 → ∃ t, CRepr ins i t ∧ t.height + i < d1 := by
  intro k
  induction k using Nat.strongRecOn with
  | ind k ih =>
    intro i hk h0 h1
    obtain ⟨e, he, h2 | ⟨h2, _, h3⟩⟩ := h.cases h0 h1
    · obtain ⟨a1, a2, a3, a4, a5, a6, a7⟩ := h2
      obtain ⟨tl, l1, l2⟩ := ih (d1 - e.lo) (by omega) e.lo rfl (by omega) a5
      obtain ⟨th, r1, r2⟩ := ih (d1 - e.hi) (by omega) e.hi rfl (by omega) a7
      refine ⟨_, .node he (Instr.inner_of_lt a2) l1 r1, ?_⟩
      simp only [Tree.height]; omega
    · rcases h3 with h3 | h3
      · exact ⟨_, .bot he h3, by simp [Tree.height]; exact h1⟩
      · exact ⟨_, .top he h3, by simp [Tree.height]; exact h1⟩

/-- The variables of an unfolding label inner instructions of the range. -/
theorem WfRange.mem (h : WfRange ins d0 d1) {i : Nat} {t : Tree} (hr : CRepr ins i t) (h0 : d0 ≤ i) (h1 : i < d1) {v : Nat} (hv : t.Mem v) :
    ∃ j e, d0 ≤ j ∧ j < d1 ∧ ins[j]? = some e ∧ e.Inner ∧ e.index = v := by
  induction hr with
  | bot => exact hv.elim
  | top => exact hv.elim
  | @node i e tl th he hin _ _ ih1 ih2 =>
    obtain ⟨a1, a2, a3, a4, a5, a6, a7⟩ := h.node h0 h1 he hin
    rcases hv with rfl | hv | hv
    · exact ⟨i, e, h0, h1, he, hin, rfl⟩
    · exact ih1 (by omega) a5 hv
    · exact ih2 (by omega) a7 hv
end

theorem Coll.Entry.unique {c : Coll} {nr a b a' b' : Nat} (h : c.Entry nr a b) (h' : c.Entry nr a' b') : a = a' ∧ b = b' := by
  obtain ⟨h1, h2⟩ := h
  obtain ⟨h3, h4⟩ := h'
  rw [h1] at h3; rw [h2] at h4
  injection h3 with h3; injection h4 with h4
  exact ⟨h3, h4⟩

theorem Coll.Entry.lt {c : Coll} {nr a b : Nat} (h : c.Entry nr a b) : nr < c.nrBdds := by
  have := h.2
  unfold Coll.nrBdds
  rcases Nat.lt_or_ge (nr + 1) c.del.length with h | h
  · omega
  · rw [List.getElem?_eq_none h] at this; cases this

/-- Assignment given by a list. -/
theorem cEvaluate_ok {cfg : Cfg} {c : Coll} {nr d0 d1 : Nat} {t : Tree} {x : List Bool} (he : c.Entry nr d0 d1) (hw : WfRange c.ins d0 d1)
    (ht : CRepr c.ins d0 t) (hx : ∀ v, t.Mem v → v < x.length) :
    cEvaluate cfg c nr x = .ok (t.eval (fun v => x.getD v false)) () := by
  unfold cEvaluate
  have hlt := he.lt
  have : ¬ c.nrBdds ≤ nr := by omega
  simp only [this, decide_false, Bool.and_false, Bool.false_eq_true, if_false, he.1]
  obtain ⟨t', h1, h2⟩ := hw.exists _ d0 rfl (Nat.le_refl _) (by have := hw.two; omega)
  have := h1.unique ht; subst this
  have := hw.len
  exact cEvalLoop_ok ht hx _ (by omega)

theorem CCovers.mem {c : Coll} {nr d0 d1 : Nat} {t : Tree} {x : List Bool} (hx : CCovers c nr x) (he : c.Entry nr d0 d1) (hw : WfRange c.ins d0 d1)
    (ht : CRepr c.ins d0 t) : ∀ v, t.Mem v → v < x.length := by
  intro v hv
  obtain ⟨j, e, h1, h2, h3, h4, h5⟩ := hw.mem ht (Nat.le_refl _) (by have := hw.two; omega) hv
  exact hx v ⟨j, e, ⟨d0, d1, he, h1, h2, h3⟩, h4, h5⟩

theorem cDenotes_tree {cfg : Cfg} {c : Coll} {nr d0 d1 : Nat} {t : Tree} (he : c.Entry nr d0 d1) (hw : WfRange c.ins d0 d1)
    (ht : CRepr c.ins d0 t) : CDenotes cfg c nr (fun x => t.eval (fun v => x.getD v false)) :=
  fun _ hx => cEvaluate_ok he hw ht (hx.mem he hw ht)

end LBDD
