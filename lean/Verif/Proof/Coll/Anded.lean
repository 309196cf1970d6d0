import Verif.Proof.Coll.Hit
import Verif.Proof.Coll.Hist
/-! What `bdd_and` of a collection produces, in the vocabulary of the specification. -/
namespace LBDD
section
variable {cfg : Cfg} {c : Coll} {l ds : List Nat} {ts : List Tree} {st : List Instr} {root : Nat}

/-- The trees of the operands evaluate like the operands. -/
theorem Operands.conj (hc : CInv c) : ∀ {l ds : List Nat} {ts : List Tree}, Operands c l ds ts → (∀ i ∈ l, i < c.nrBdds) →
    (∀ (cfg : Cfg) (x : List Bool), (∀ i ∈ l, CCovers c i x) → ((conj ts (asg x) = true ↔ ∀ i ∈ l, cEvaluate cfg c i x = .ok true ()) ∧
      ∀ t ∈ ts, ∀ v, t.Mem v → v < x.length)) ∧
    ((∀ i ∈ l, c.Ordered i) → ∀ t ∈ ts, t.Ordered) ∧ (∀ t ∈ ts, ∀ v, t.Mem v → ∃ i ∈ l, c.Var i v)
  | [], ds, ts, ho, _ => by
    have := ho.dlms
    unfold dlms at this
    cases this
    have hr := ho.reprs
    cases ts with
    | nil => exact ⟨fun _ x _ => by simp [LBDD.conj], by simp, by simp⟩
    | cons => exact hr.elim
  | i :: l, ds, ts, ho, hl => by
    have := ho.dlms
    unfold dlms at this
    obtain ⟨d, c1, e1, h⟩ := bind_ok_inv this
    obtain ⟨ds', c2, e2, e3⟩ := bind_ok_inv h
    clear h this
    obtain ⟨d0, d1, he, hw⟩ := hc.wf i (hl i (by simp))
    have hd : dlm i c = .ok d0 c := by unfold dlm; rw [he.1]
    rw [hd] at e1
    injection e1 with e1 e1'
    subst e1; subst e1'
    cases e3
    have hr := ho.reprs
    cases ts with
    | nil => exact hr.elim
    | cons t ts =>
      obtain ⟨r1, r2⟩ := hr
      obtain ⟨ih1, ih2, ih3⟩ := Operands.conj hc (l := l) (ds := ds') (ts := ts) ⟨e2, fun k hk => ho.wf k (by simp [hk]), r2⟩ (fun j hj => hl j (by simp [hj]))
      have two := hw.two
      refine ⟨?_, ?_, ?_⟩
      · intro cfg x hx
        obtain ⟨a1, a2⟩ := ih1 cfg x (fun j hj => hx j (by simp [hj]))
        have hm := (hx i (by simp)).mem he hw r1
        have hev := cEvaluate_ok (cfg := cfg) he hw r1 hm
        refine ⟨?_, ?_⟩
        · have : LBDD.conj (t :: ts) (asg x) = (t.eval (asg x) && LBDD.conj ts (asg x)) := by simp [LBDD.conj]
          rw [this, Bool.and_eq_true, a1]
          have key : t.eval (asg x) = true ↔ cEvaluate cfg c i x = .ok true () := by
            rw [hev]
            constructor
            · intro h; rw [show t.eval (fun v => x.getD v false) = true from h]
            · intro h; injection h
          rw [key]
          simp
        · intro t' ht'
          rcases List.mem_cons.1 ht' with rfl | ht'
          · exact hm
          · exact a2 t' ht'
      · intro h t' ht'
        rcases List.mem_cons.1 ht' with rfl | ht'
        · exact (hc.wf i (hl i (by simp))).tree_ordered he (h i (by simp)) r1 (Nat.le_refl _) (by omega)
        · exact ih2 (fun j hj => h j (by simp [hj])) t' ht'
      · intro t' ht' v hv
        rcases List.mem_cons.1 ht' with rfl | ht'
        · obtain ⟨j, e, h1, h2, h3, h4, h5⟩ := hw.mem r1 (Nat.le_refl _) (by omega) hv
          exact ⟨i, by simp, j, e, ⟨d0, d1, he, h1, h2, h3⟩, h4, h5⟩
        · obtain ⟨j, h1, h2⟩ := ih3 t' ht' v hv
          exact ⟨j, by simp [h1], h2⟩

/-- Facts about the entry appended by a conjunction. `t` is what the root computed by the recursion unfolds to. -/
structure Anded (c c' : Coll) (K : Nat) (l : List Nat) (t : Tree) : Prop where
  inv : CInv c'
  nr : c'.nrBdds = c.nrBdds + 1
  same : ∀ k, k < c.nrBdds → SameEntry c k c' k
  two : 2 ≤ K
  entry : c'.Entry c.nrBdds c.ins.length (c.ins.length + K)
  wf : c'.Wf c.nrBdds
  reduced : c'.Reduced c.nrBdds
  /-- `t` is the conjunction -/
  conj : ∀ (cfg : Cfg) (x : List Bool), (∀ i ∈ l, CCovers c i x) → (t.eval (asg x) = true ↔ ∀ i ∈ l, cEvaluate cfg c i x = .ok true ())
  mem : ∀ v, t.Mem v → ∃ i ∈ l, c.Var i v
  ordered : (∀ i ∈ l, c.Ordered i) → t.Ordered
  treeRed : t.Reduced
  /-- without inner nodes the conjunction is a constant, and the entry evaluates to true -/
  small : K = 2 → (t = .bot ∨ t = .top) ∧ CRepr c'.ins c.ins.length .top
  /-- otherwise the entry is the conjunction -/
  big : K ≠ 2 → CRepr c'.ins c.ins.length t ∧ c'.Connected c.nrBdds ∧ t ≠ .bot ∧ t ≠ .top
  /-- the true sink comes first -/
  sinks : ∃ a b, c'.ins[c.ins.length + K - 2]? = some a ∧ c'.ins[c.ins.length + K - 1]? = some b ∧ a.index = cTop ∧ b.index = cBot

theorem anded (hc : CInv c) (hl : ∀ i ∈ l, i < c.nrBdds) (ho : Operands c l ds ts) (h : AndOut st root ts) :
    ∃ t, Anded c (finish c st) st.length l t := by
  obtain ⟨hroot, t, hr, hev, hmem, hord⟩ := h.val
  have hwr := finish_wf (c := c) h.sok
  have hent := finish_entry (st := st) hc
  have hlen : 2 ≤ st.length := h.sok.two
  have hAt : ∀ {i e}, (finish c st).At c.nrBdds i e → c.ins.length ≤ i ∧ i < c.ins.length + st.length ∧ (finish c st).ins[i]? = some e := by
    rintro i e' ⟨a, b, g1, g2, g3, g4⟩
    obtain ⟨rfl, rfl⟩ := g1.unique hent
    exact ⟨g2, g3, g4⟩
  have hred : (finish c st).Reduced c.nrBdds := by
    refine ⟨?_, ?_⟩
    · intro i e ha hin
      obtain ⟨q1, q2, q3⟩ := hAt ha
      exact (hwr.node q1 q2 q3 hin).2.2.1
    · intro i j e ha hb hin
      obtain ⟨q1, q2, q3⟩ := hAt ha
      obtain ⟨r1, r2, r3⟩ := hAt hb
      exact finish_nodup h.sok i j e q1 q2 r1 r2 hin q3 r3
  have hrf := finish_repr (c := c) hr
  have hwf : (finish c st).Wf c.nrBdds := ⟨_, _, hent, hwr⟩
  refine ⟨t, { inv := finish_inv hc h.sok, nr := finish_nrBdds hc, same := ?_, two := hlen, entry := hent, wf := hwf, reduced := hred,
               conj := ?_, mem := ?_, ordered := ?_, treeRed := ?_, small := ?_, big := ?_, sinks := ?_ }⟩
  · intro k hk
    obtain ⟨d0, d1, he, hw⟩ := hc.wf k hk
    exact .of_eq hw he (finish_old_entry hc he) (fun i _ h1 => finish_old (by have := hw.len; omega))
  · intro cfg x hx
    rw [hev]
    exact ((Operands.conj hc ho hl).1 cfg x hx).1
  · intro v hv
    obtain ⟨u, h1, h2⟩ := hmem v hv
    exact (Operands.conj hc ho hl).2.2 u h1 v h2
  · intro h'
    exact hord ((Operands.conj hc ho hl).2.1 h')
  · exact tree_reduced hwf hred hent hrf (by omega) (by omega)
  · intro hK
    refine ⟨?_, ?_⟩
    · have : root = 0 ∨ root = 1 := by omega
      rcases this with rfl | rfl
      · exact Or.inl (hr.unique (.bot h.sok.s0 rfl))
      · exact Or.inr (hr.unique (.top h.sok.s1 rfl))
    · have := finish_repr (c := c) (CRepr.top h.sok.s1 rfl)
      rw [hK] at this
      rw [show c.ins.length + 2 - 1 - 1 = c.ins.length by omega] at this
      exact this
  · intro hK
    have hrt : root + 1 = st.length := by rcases h.last with h | h; exact h; exact absurd h hK
    have hpos : c.ins.length + st.length - 1 - root = c.ins.length := by omega
    have hin : ∃ e, st[root]? = some e ∧ e.Inner := by
      obtain ⟨e, he⟩ : ∃ e, st[root]? = some e := ⟨_, List.getElem?_eq_getElem hroot⟩
      rcases h.sok.cases he with h | h
      · exact ⟨e, he, h.1⟩
      · omega
    rw [hpos] at hrf
    refine ⟨hrf, ?_, ?_⟩
    rotate_left
    · obtain ⟨e, he, hin⟩ := hin
      obtain ⟨tl, th, rfl, _⟩ := hr.inv he hin
      exact ⟨fun h => Tree.noConfusion h, fun h => Tree.noConfusion h⟩
    · intro d0 i e hd ha hin
      have : d0 = c.ins.length := by have := hent.1; rw [hd] at this; injection this
      subst this
      obtain ⟨q1, q2, q3⟩ := hAt ha
      obtain ⟨e', g1, g2⟩ := finish_inv_get q1 q2 q3
      have hi2 : 2 ≤ c.ins.length + st.length - 1 - i := by
        rcases h.sok.cases g1 with h | h
        · exact h.2.1
        · exact absurd (by rw [g2] at hin; exact hin) h.1
      have := finish_reach (c := c) (h.conn _ hi2 (by omega))
      rw [hpos, show c.ins.length + st.length - 1 - (c.ins.length + st.length - 1 - i) = i by omega] at this
      exact this
  · have h1 := finish_get (c := c) h.sok.s1
    have h0 := finish_get (c := c) h.sok.s0
    rw [show c.ins.length + st.length - 1 - 1 = c.ins.length + st.length - 2 by omega] at h1
    rw [show c.ins.length + st.length - 1 - 0 = c.ins.length + st.length - 1 by omega] at h0
    exact ⟨_, _, h1, h0, rfl, rfl⟩

/-- An ordered unfolding of the root of a connected entry makes the entry ordered. -/
theorem ordered_of_tree {nr d0 d1 : Nat} (hw : c.Wf nr) (he : c.Entry nr d0 d1) (hcon : c.Connected nr) {t : Tree} (ht : CRepr c.ins d0 t) (ho : t.Ordered) :
    c.Ordered nr := by
  have hwr := hw.entry he
  have key : ∀ {i j : Nat}, CReach c.ins i j → ∀ {t : Tree}, CRepr c.ins i t → t.Ordered → ∃ tj, CRepr c.ins j tj ∧ tj.Ordered := by
    intro i j h
    induction h with
    | refl => intro t h1 h2; exact ⟨t, h1, h2⟩
    | lo g1 g2 _ ih =>
      intro t h1 h2
      obtain ⟨tl, th, rfl, a, b⟩ := h1.inv g1 g2
      exact ih a h2.2.2.1
    | hi g1 g2 _ ih =>
      intro t h1 h2
      obtain ⟨tl, th, rfl, a, b⟩ := h1.inv g1 g2
      exact ih b h2.2.2.2
  intro i e j e' ha hin hj ha' hin'
  have hr := hcon d0 i e he.1 ha hin
  obtain ⟨tj, h1, h2⟩ := key hr ht ho
  obtain ⟨_, _, _, _, _, q⟩ := ha
  obtain ⟨_, _, _, _, _, q'⟩ := ha'
  obtain ⟨tl, th, rfl, a, b⟩ := h1.inv q hin
  rcases hj with rfl | rfl
  · obtain ⟨_, _, rfl, _⟩ := a.inv q' hin'
    exact h2.1 _ (Or.inl rfl)
  · obtain ⟨_, _, rfl, _⟩ := b.inv q' hin'
    exact h2.2.1 _ (Or.inl rfl)
end
end LBDD
