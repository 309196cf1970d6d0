import Verif.Model.CollEdit
import Verif.Proof.Coll.Add
import Verif.Proof.Coll.Query
/-! `reduce` leaves an entry alone that has no two equal nodes and no node with equal arcs. -/
namespace LBDD

variable {cfg : Cfg} {c : Coll} {d0 d1 : Nat}

theorem set_self {l : List Instr} {i : Nat} {e : Instr} (h : l[i]? = some e) : l.set i e = l := by
  apply List.ext_getElem?
  intro j
  by_cases hj : i = j
  · subst hj
    rw [List.getElem?_set_self (lt_of_get h), h]
  · rw [List.getElem?_set_ne hj]

theorem coll_set_self {i : Nat} {e : Instr} (h : c.ins[i]? = some e) : { c with ins := c.ins.set i e } = c := by
  rw [set_self h]

/-- The two arc conditions of the first loop never hold. -/
theorem skipArc_ok (b : Bool) (a : Nat) (l : Instr) : skipArc b a l c = .ok a c := by
  unfold skipArc
  have : (!l.isTerm && l.lo == l.hi) = false := by
    unfold Instr.isTerm
    cases (l.lo == l.hi) <;> rfl
  rw [this]
  rfl

theorem redMark_id (hw : WfRange c.ins d0 d1) (h0 : 0 < d0) (rm : List Bool) : ∀ k, d0 + k + 2 ≤ d1 → redMark d0 k rm c = .ok rm c
  | 0, _ => by unfold redMark; rw [if_neg (by omega)]; rfl
  | k + 1, hk => by
    obtain ⟨e, he, h1, h2, h3, h4, h5, h6⟩ := hw.inner (d0 + k) (by omega) (by omega)
    obtain ⟨l, hl, _⟩ := hw.cases (i := e.lo) (by omega) h4
    obtain ⟨h, hh, _⟩ := hw.cases (i := e.hi) (by omega) h6
    unfold redMark
    rw [M.bind_ok (insAt_ok he), M.bind_ok (insAt_ok hl), M.bind_ok (insAt_ok hh), M.bind_ok (skipArc_ok _ _ _), M.bind_ok (skipArc_ok _ _ _)]
    show redMark d0 k _ { c with ins := c.ins.set (d0 + k) e } = _
    rw [coll_set_self he, if_neg h2]
    exact redMark_id hw h0 rm k (by omega)

/-- What `bdd_map` contains when the positions from `k` on have been processed. -/
structure RedMapOk (ins : List Instr) (k d1 : Nat) (m : List (Instr × Nat)) : Prop where
  has : ∀ j e, k ≤ j → j < d1 → ins[j]? = some e → m.lookup e = some j
  only : ∀ e j, m.lookup e = some j → k ≤ j ∧ j < d1 ∧ ins[j]? = some e

theorem RedMapOk.insert {ins : List Instr} {k : Nat} {m : List (Instr × Nat)} (h : RedMapOk ins (k + 1) d1 m) {e : Instr} (he : ins[k]? = some e) (hk : k < d1)
    (hn : m.lookup e = none) : RedMapOk ins k d1 (insertNew m e k) := by
  refine ⟨fun j e' h1 h2 h3 => ?_, fun e' j h1 => ?_⟩
  · rw [lookup_insertNew]
    by_cases hj : j = k
    · subst hj
      rw [he] at h3; cases h3
      rw [if_pos ⟨rfl, hn⟩]
    · have := h.has j e' (by omega) h2 h3
      rw [if_neg (by rintro ⟨rfl, h⟩; rw [this] at h; cases h)]
      exact this
  · rw [lookup_insertNew] at h1
    split at h1
    · rename_i hc
      obtain ⟨rfl, _⟩ := hc
      cases h1
      exact ⟨Nat.le_refl _, hk, he⟩
    · have := h.only _ _ h1
      exact ⟨by omega, this.2⟩

theorem redMerge_id (hw : WfRange c.ins d0 d1) (h0 : 0 < d0)
    (hnd : ∀ (i j : Nat) (e : Instr), d0 ≤ i → i < d1 → d0 ≤ j → j < d1 → e.Inner → c.ins[i]? = some e → c.ins[j]? = some e → i = j)
    {rm : List Bool} (hrm : ∀ k : Nat, rm[k]? ≠ some true) :
    ∀ k m, d0 + k + 2 ≤ d1 → RedMapOk c.ins (d0 + k) d1 m → redMerge cfg d0 k m rm c = .ok rm c
  | 0, m, _, _ => by unfold redMerge; rw [if_neg (by omega)]; rfl
  | k + 1, m, hk, hm => by
    obtain ⟨e, he, h1, h2, h3, h4, h5, h6⟩ := hw.inner (d0 + k) (by omega) (by omega)
    obtain ⟨l, hl, _⟩ := hw.cases (i := e.lo) (by omega) h4
    obtain ⟨h, hh, _⟩ := hw.cases (i := e.hi) (by omega) h6
    have hnone : m.lookup e = none := by
      cases hx : m.lookup e with
      | none => rfl
      | some j =>
        obtain ⟨a1, a2, a3⟩ := hm.only _ _ hx
        have := hnd (d0 + k) j e (by omega) (by omega) (by omega) a2 (Instr.inner_of_lt h1) he a3
        omega
    have hm' : RedMapOk c.ins (d0 + k) d1 (insertNew m e (d0 + k)) := RedMapOk.insert (k := d0 + k) hm he (by omega) hnone
    have k1 := hm'.has e.lo l (by omega) h4 hl
    have k2 := hm'.has e.hi h (by omega) h6 hh
    unfold redMerge
    rw [if_neg (hrm k), M.bind_ok (insAt_ok he), M.bind_ok (insAt_ok hl), M.bind_ok (insAt_ok hh)]
    rw [M.assert_bind_apply (by rw [k1]; simp), M.assert_bind_apply (by rw [k2]; simp)]
    have e1 : mapAt (insertNew m e (d0 + k)) l c = .ok e.lo c := by unfold mapAt; rw [k1]; rfl
    have e2 : mapAt (insertNew m e (d0 + k)) h c = .ok e.hi c := by unfold mapAt; rw [k2]; rfl
    rw [M.bind_ok e1]
    have e3 : (M.modify fun c => { c with ins := c.ins.set (d0 + k) { e with lo := e.lo } } : M Coll Unit) c = .ok () c := by
      show Res.ok () { c with ins := c.ins.set (d0 + k) e } = _
      rw [coll_set_self he]
    rw [M.bind_ok e3, M.bind_ok (insAt_ok hh), M.bind_ok e2, M.bind_ok e3, hnone]
    exact redMerge_id hw h0 hnd hrm k _ (by omega) hm'

theorem redCopy_id (hw : WfRange c.ins d0 d1) {rm : List Bool} (hrm : ∀ k : Nat, rm[k]? ≠ some true) (hlen : rm.length = d1 - d0) :
    ∀ n i, d0 + i + n + 2 = d1 → redCopy d0 rm n i c = .ok ((c.ins.drop (d0 + i)).take n) c
  | 0, i, _ => by unfold redCopy; simp; rfl
  | n + 1, i, hn => by
    obtain ⟨e, he, h1, h2, h3, h4, h5, h6⟩ := hw.inner (d0 + i) (by omega) (by omega)
    have hf : ∀ j, ((rm.take j).filter (· == true)).length = 0 := by
      intro j
      rw [List.length_eq_zero_iff, List.filter_eq_nil_iff]
      intro b hb hbt
      have := List.mem_of_mem_take hb
      obtain ⟨k, hk⟩ := List.mem_iff_getElem?.1 this
      rw [show b = true by simpa using hbt] at hk
      exact hrm k hk
    have hs : ∀ a j, subDelta rm a j = a := by
      intro a j
      unfold subDelta
      simp only [hf j]
      simp
    unfold redCopy
    rw [if_neg (hrm i), M.bind_ok (insAt_ok he), if_neg (by omega), M.bind_ok (redCopy_id hw hrm hlen n (i + 1) (by omega)), hs, hs]
    show Res.ok _ c = _
    rw [List.drop_eq_getElem_cons (lt_of_get he), List.take_succ_cons]
    rw [List.getElem?_eq_getElem (lt_of_get he)] at he
    injection he with he
    rw [he]
    rfl

theorem split_last_two (h : WfRange c.ins d0 c.ins.length) {a b : Instr} (ha : c.ins[c.ins.length - 1]? = some a)
    (hb : c.ins[c.ins.length - 2]? = some b) : c.ins.take d0 ++ (c.ins.drop d0).take (c.ins.length - 2 - d0) ++ [b, a] = c.ins := by
  have h2 := h.two
  have e1 : c.ins.take d0 ++ (c.ins.drop d0).take (c.ins.length - 2 - d0) = c.ins.take (c.ins.length - 2) := by
    rw [show c.ins.length - 2 = d0 + (c.ins.length - 2 - d0) by omega, List.take_add]
    rw [show d0 + (c.ins.length - 2 - d0) - d0 = c.ins.length - 2 - d0 by omega]
  rw [e1]
  have e2 : c.ins.drop (c.ins.length - 2) = [b, a] := by
    rw [List.drop_eq_getElem_cons (lt_of_get hb), show c.ins.length - 2 + 1 = c.ins.length - 1 by omega, List.drop_eq_getElem_cons (lt_of_get ha),
      List.drop_of_length_le (by omega)]
    rw [List.getElem?_eq_getElem (lt_of_get ha)] at ha
    rw [List.getElem?_eq_getElem (lt_of_get hb)] at hb
    injection ha with ha
    injection hb with hb
    rw [ha, hb]
  rw [← e2, List.take_append_drop]

/-- `reduce` does nothing when the last entry, which does not start at position 0, is already reduced. -/
theorem reduceLast_id {nr : Nat} (hn : c.nrBdds = nr + 1) (he : c.Entry nr d0 c.ins.length) (hw : WfRange c.ins d0 c.ins.length) (h0 : 0 < d0)
    (hnd : ∀ (i j : Nat) (e : Instr), d0 ≤ i → i < c.ins.length → d0 ≤ j → j < c.ins.length → e.Inner → c.ins[i]? = some e → c.ins[j]? = some e → i = j) :
    reduceLast cfg c = .ok () c := by
  obtain ⟨b, a, hb, ha, tb, ta, hab⟩ := hw.sinks
  have h2 := hw.two
  unfold reduceLast
  rw [M.get_bind_apply, M.assert_bind_apply (by simp; omega)]
  have hnr : c.nrBdds - 1 = nr := by omega
  simp only [hnr]
  rw [M.bind_ok (dlm_ok0 he), M.bind_ok (dlm_ok1 he), if_neg (by omega)]
  have hrm : ∀ k : Nat, (List.replicate (c.ins.length - d0) false)[k]? ≠ some true := by
    intro k h
    have := List.mem_of_getElem? h
    simp at this
  rw [M.bind_ok (redMark_id hw h0 _ _ (by omega)), M.bind_ok (insAt_ok ha), M.bind_ok (insAt_ok hb)]
  have hne : a ≠ b := by
    intro h
    subst h
    have := cBot_ne_cTop
    rcases hab with ⟨h, h'⟩ | ⟨h, h'⟩
    · exact this (h.symm.trans h')
    · exact this (h'.symm.trans h)
  have hm0 : RedMapOk c.ins c.ins.length c.ins.length [] := ⟨fun j e h1 h2 => by omega, fun e j h => by simp at h⟩
  have hm1 : RedMapOk c.ins (c.ins.length - 1) c.ins.length (insertNew [] a (c.ins.length - 1)) :=
    RedMapOk.insert (by rw [show c.ins.length - 1 + 1 = c.ins.length by omega]; exact hm0) ha (by omega) rfl
  have hm2 : RedMapOk c.ins (c.ins.length - 2) c.ins.length (insertNew (insertNew [] a (c.ins.length - 1)) b (c.ins.length - 2)) := by
    refine RedMapOk.insert (by rw [show c.ins.length - 2 + 1 = c.ins.length - 1 by omega]; exact hm1) hb (by omega) ?_
    rw [lookup_insertNew]
    have : ¬ b = a := fun h => hne h.symm
    simp [this]
  rw [M.bind_ok (redMerge_id hw h0 hnd hrm _ _ (by omega) (by rw [show d0 + (c.ins.length - 2 - d0) = c.ins.length - 2 by omega]; exact hm2))]
  rw [M.bind_ok (redCopy_id hw hrm (by simp) _ _ (by omega)), M.bind_ok (insAt_ok hb), M.bind_ok (insAt_ok ha)]
  simp only [Nat.add_zero]
  have e3 : (M.modify fun c' => 
      { c' with ins := c'.ins.take d0 ++ (c.ins.drop d0).take (c.ins.length - 2 - d0) ++ [b, a], 
                del := c'.del.set (nr + 1) (c'.ins.take d0 ++ (c.ins.drop d0).take (c.ins.length - 2 - d0) ++ [b, a]).length } : M Coll Unit) c = .ok () c := by
    show Res.ok () { c with ins := c.ins.take d0 ++ (c.ins.drop d0).take (c.ins.length - 2 - d0) ++ [b, a],
                            del := c.del.set (nr + 1) (c.ins.take d0 ++ (c.ins.drop d0).take (c.ins.length - 2 - d0) ++ [b, a]).length } = _
    rw [split_last_two hw ha hb]
    have : c.del.set (nr + 1) c.ins.length = c.del := by
      apply List.ext_getElem?
      intro j
      by_cases hj : nr + 1 = j
      · subst hj
        rw [List.getElem?_set_self (lt_of_get he.2), he.2]
      · rw [List.getElem?_set_ne hj]
    rw [this]
  rw [M.bind_ok e3, M.get_bind_apply]
  have : c.isBdd nr = true := isBdd_ok he hw hnd
  unfold M.assert
  simp [this]

end LBDD
