import Verif.Proof.Coll.Limit
/-! `bdd_and` of a collection: the complete outcome. -/
namespace LBDD

/-- Consistent collection between calls. -/
structure CInv (c : Coll) : Prop where
  first : c.del[0]? = some 0
  last : c.del.getLast? = some c.ins.length
  wf : ∀ nr, nr < c.nrBdds → c.Wf nr
  stack : c.stack = []
  gen : c.gen = []
  red : c.red = []
  nrh : c.nrh = []

theorem CInv.init : CInv Coll.init where
  first := rfl
  last := rfl
  wf := by intro nr h; simp [Coll.nrBdds, Coll.init] at h
  stack := rfl
  gen := rfl
  red := rfl
  nrh := rfl

theorem isBddLoop_ok {c : Coll} {d0 d1 : Nat} (hw : WfRange c.ins d0 d1)
    (hnd : ∀ (i j : Nat) (e : Instr), d0 ≤ i → i < d1 → d0 ≤ j → j < d1 → e.Inner → c.ins[i]? = some e → c.ins[j]? = some e → i = j) :
    ∀ (n i : Nat) (seen : List Instr), d0 ≤ i → i + n = d1 - 2 → (∀ e ∈ seen, ∃ j, d0 ≤ j ∧ j < i ∧ c.ins[j]? = some e) →
      isBddLoop c d0 d1 n i seen = true
  | 0, _, _, _, _, _ => rfl
  | n + 1, i, seen, h0, hn, hs => by
    obtain ⟨e, he, h1, h2, h3, h4, h5, h6⟩ := hw.inner i h0 (by omega)
    unfold isBddLoop
    have t : e.isTerm = false := by simp [Instr.isTerm, h2]
    have ns : seen.contains e = false := by
      cases hc : seen.contains e with
      | false => rfl
      | true =>
        obtain ⟨j, a, b, d⟩ := hs e (by simpa using hc)
        have := hnd i j e h0 (by omega) a (by omega) (Instr.inner_of_lt h1) he d
        omega
    rw [he]
    simp only [t, Bool.false_eq_true, if_false, ns]
    rw [if_neg (by simp; omega), if_neg (by simp; omega)]
    refine isBddLoop_ok hw hnd n (i + 1) _ (by omega) (by omega) ?_
    intro e' he'
    rcases List.mem_cons.1 he' with rfl | he'
    · exact ⟨i, h0, by omega, he⟩
    · obtain ⟨j, a, b, d⟩ := hs e' he'
      exact ⟨j, a, by omega, d⟩

theorem isBdd_ok {c : Coll} {nr d0 d1 : Nat} (he : c.Entry nr d0 d1) (hw : WfRange c.ins d0 d1)
    (hnd : ∀ (i j : Nat) (e : Instr), d0 ≤ i → i < d1 → d0 ≤ j → j < d1 → e.Inner → c.ins[i]? = some e → c.ins[j]? = some e → i = j) :
    c.isBdd nr = true := by
  obtain ⟨a, b, ha, hb, h2, h3, h4⟩ := hw.sinks
  have hab : (b == a) = false := by
    cases h : (b == a) with
    | false => rfl
    | true =>
      have : b = a := by simpa using h
      subst this
      have := cBot_ne_cTop
      rcases h4 with ⟨h, h'⟩ | ⟨h, h'⟩
      · exact absurd (h.symm.trans h') this
      · exact absurd (h'.symm.trans h) this
  unfold Coll.isBdd
  have := hw.two
  simp only [he.1, he.2, ha, hb]
  rw [if_neg (by omega)]
  have ta : a.isTerm = true := by simp [Instr.isTerm, h2]
  have tb : b.isTerm = true := by simp [Instr.isTerm, h3]
  simp only [ta, tb, hab, Bool.not_true, Bool.or_self, Bool.false_eq_true, if_false]
  exact isBddLoop_ok hw hnd _ _ _ (Nat.le_refl _) (by omega) (by simp)

/-- The collection with the nodes of `st` appended as a new entry. -/
def finish (c : Coll) (st : List Instr) : Coll :=
  { ins := c.ins ++ st.reverse.map (flipInstr (c.ins.length + st.length))
    del := c.del ++ [c.ins.length + st.length]
    stack := [], gen := [], red := [], nrh := c.nrh }

theorem finish_get {c : Coll} {st : List Instr} {i : Nat} {e : Instr} (h : st[i]? = some e) :
    (finish c st).ins[c.ins.length + st.length - 1 - i]? = some (flipInstr (c.ins.length + st.length) e) := by
  have hi := lt_of_get h
  show (c.ins ++ _)[_]? = _
  rw [List.getElem?_append_right (by omega), List.getElem?_map, List.getElem?_reverse (by omega)]
  have : st.length - 1 - (c.ins.length + st.length - 1 - i - c.ins.length) = i := by omega
  rw [this, h]; rfl

theorem finish_old {c : Coll} {st : List Instr} {i : Nat} (h : i < c.ins.length) : (finish c st).ins[i]? = c.ins[i]? :=
  List.getElem?_append_left h

theorem finish_del {c : Coll} {st : List Instr} {i : Nat} (h : i < c.del.length) : (finish c st).del[i]? = c.del[i]? :=
  List.getElem?_append_left h

theorem finish_len {c : Coll} {st : List Instr} : (finish c st).ins.length = c.ins.length + st.length := by
  simp [finish]

theorem finish_inv_get {c : Coll} {st : List Instr} {i : Nat} {e : Instr} (h0 : c.ins.length ≤ i) (h1 : i < c.ins.length + st.length)
    (he : (finish c st).ins[i]? = some e) : ∃ e', st[c.ins.length + st.length - 1 - i]? = some e' ∧ e = flipInstr (c.ins.length + st.length) e' := by
  obtain ⟨e', he'⟩ : ∃ e', st[c.ins.length + st.length - 1 - i]? = some e' := ⟨st[c.ins.length + st.length - 1 - i]'(by omega), by
    rw [List.getElem?_eq_getElem]⟩
  have := finish_get (c := c) he'
  have h : c.ins.length + st.length - 1 - (c.ins.length + st.length - 1 - i) = i := by omega
  rw [h, he] at this
  cases this
  exact ⟨e', he', rfl⟩

theorem SOk.cases {st : List Instr} (h : SOk st) {i : Nat} {e : Instr} (he : st[i]? = some e) :
    (e.Inner ∧ 2 ≤ i ∧ e.lo < i ∧ e.hi < i ∧ e.lo ≠ e.hi ∧ e.index < cBot) ∨ (¬ e.Inner ∧ i < 2 ∧ (e = botInstr ∧ i = 0 ∨ e = topInstr ∧ i = 1)) := by
  by_cases h2 : 2 ≤ i
  · have := h.inner i e h2 he
    exact Or.inl ⟨Instr.inner_of_lt this.2.2.2, h2, this⟩
  · have : i = 0 ∨ i = 1 := by omega
    rcases this with rfl | rfl
    · rw [h.s0] at he; cases he
      exact Or.inr ⟨fun h => h.1 rfl, by omega, Or.inl ⟨rfl, rfl⟩⟩
    · rw [h.s1] at he; cases he
      exact Or.inr ⟨fun h => h.2 rfl, by omega, Or.inr ⟨rfl, rfl⟩⟩

theorem finish_wf {c : Coll} {st : List Instr} (h : SOk st) : WfRange (finish c st).ins c.ins.length (c.ins.length + st.length) where
  two := by have := h.two; omega
  inner := by
    intro i h0 h1
    have hlt : c.ins.length + st.length - 1 - i < st.length := by omega
    obtain ⟨e, he⟩ : ∃ e, st[c.ins.length + st.length - 1 - i]? = some e := ⟨_, List.getElem?_eq_getElem hlt⟩
    have hg := finish_get (c := c) he
    have hpos : c.ins.length + st.length - 1 - (c.ins.length + st.length - 1 - i) = i := by omega
    rw [hpos] at hg
    rcases h.cases he with ⟨a1, a2, a3, a4, a5, a6⟩ | ⟨_, a2, _⟩
    · refine ⟨_, hg, a6, ?_, ?_, ?_, ?_, ?_⟩ <;> simp only [flipInstr] <;> omega
    · omega
  sinks := by
    have h1 := finish_get (c := c) h.s1
    have h0 := finish_get (c := c) h.s0
    have := h.two
    have e1 : c.ins.length + st.length - 1 - 1 = c.ins.length + st.length - 2 := by omega
    have e0 : c.ins.length + st.length - 1 - 0 = c.ins.length + st.length - 1 := by omega
    rw [e1] at h1
    rw [e0] at h0
    exact ⟨_, _, h1, h0, rfl, rfl, Or.inr ⟨rfl, rfl⟩⟩

theorem finish_repr {c : Coll} {st : List Instr} {m : Nat} {t : Tree} (ht : CRepr st m t) :
    CRepr (finish c st).ins (c.ins.length + st.length - 1 - m) t := by
  have := CRepr.map (ins := st) (ins' := (finish c st).ins) (fun _ => True) (fun i => c.ins.length + st.length - 1 - i) (fun v => v)
    (fun i e _ he _ => ⟨_, finish_get he, rfl⟩)
    (fun i e _ he hin => by
      refine ⟨trivial, trivial, _, finish_get he, hin, rfl, ?_, ?_⟩ <;> simp only [flipInstr] <;> omega) ht trivial
  rwa [Tree.ren_id] at this

theorem finish_reach {c : Coll} {st : List Instr} {i j : Nat} (h : CReach st i j) :
    CReach (finish c st).ins (c.ins.length + st.length - 1 - i) (c.ins.length + st.length - 1 - j) := by
  induction h with
  | refl => exact .refl _
  | @lo i j e h1 h2 _ ih =>
    refine .lo (finish_get h1) h2 ?_
    have : (flipInstr (c.ins.length + st.length) e).lo = c.ins.length + st.length - 1 - e.lo := by simp only [flipInstr]; omega
    rw [this]; exact ih
  | @hi i j e h1 h2 _ ih =>
    refine .hi (finish_get h1) h2 ?_
    have : (flipInstr (c.ins.length + st.length) e).hi = c.ins.length + st.length - 1 - e.hi := by simp only [flipInstr]; omega
    rw [this]; exact ih

/-- No two equal inner instructions in the new entry. -/
theorem finish_nodup {c : Coll} {st : List Instr} (h : SOk st) (i j : Nat) (e : Instr) (hi0 : c.ins.length ≤ i) (hi1 : i < c.ins.length + st.length)
    (hj0 : c.ins.length ≤ j) (hj1 : j < c.ins.length + st.length) (hin : e.Inner) (hi : (finish c st).ins[i]? = some e) (hj : (finish c st).ins[j]? = some e) : i = j := by
  obtain ⟨a, ha, ea⟩ := finish_inv_get hi0 hi1 hi
  obtain ⟨b, hb, eb⟩ := finish_inv_get hj0 hj1 hj
  have hab : a = b := by
    have q := ea.symm.trans eb
    have h1 : a.Inner := by rw [ea] at hin; exact hin
    have h2 : b.Inner := by rw [eb] at hin; exact hin
    rcases h.cases ha with ⟨_, a2, a3, a4, _⟩ | ⟨a2, _⟩
    · rcases h.cases hb with ⟨_, b2, b3, b4, _⟩ | ⟨b2, _⟩
      · have l1 := lt_of_get ha
        have l2 := lt_of_get hb
        simp only [flipInstr, Instr.mk.injEq] at q
        obtain ⟨q1, q2, q3⟩ := q
        cases a; cases b
        simp only [Instr.mk.injEq] at *
        omega
      · exact absurd h2 b2
    · exact absurd h1 a2
  subst hab
  have := h.nodup _ _ _ ha hb
  omega

theorem getLast_length_del {c : Coll} (h : CInv c) : c.del[c.nrBdds]? = some c.ins.length ∧ c.del.length = c.nrBdds + 1 := by
  have := h.last
  have h0 := lt_of_get h.first
  rw [List.getLast?_eq_getElem?] at this
  exact ⟨this, by unfold Coll.nrBdds; omega⟩

theorem finish_entry {c : Coll} {st : List Instr} (h : CInv c) : (finish c st).Entry c.nrBdds c.ins.length (c.ins.length + st.length) := by
  obtain ⟨h1, h2⟩ := getLast_length_del h
  refine ⟨?_, ?_⟩
  · rw [finish_del (by omega)]; exact h1
  · show (c.del ++ _)[_]? = _
    rw [List.getElem?_append_right (by omega), h2]; simp

theorem finish_nrBdds {c : Coll} {st : List Instr} (h : CInv c) : (finish c st).nrBdds = c.nrBdds + 1 := by
  obtain ⟨h1, h2⟩ := getLast_length_del h
  simp only [Coll.nrBdds, finish, List.length_append, List.length_cons, List.length_nil] at *
  omega

theorem finish_old_entry {c : Coll} {st : List Instr} (h : CInv c) {nr d0 d1 : Nat} (he : c.Entry nr d0 d1) : (finish c st).Entry nr d0 d1 := by
  obtain ⟨h1, h2⟩ := getLast_length_del h
  have := he.lt
  exact ⟨by rw [finish_del (by omega)]; exact he.1, by rw [finish_del (by omega)]; exact he.2⟩

theorem finish_old_entry' {c : Coll} {st : List Instr} (h : CInv c) {nr d0 d1 : Nat} (hn : nr < c.nrBdds) (he : (finish c st).Entry nr d0 d1) : c.Entry nr d0 d1 := by
  obtain ⟨h1, h2⟩ := getLast_length_del h
  exact ⟨by rw [← he.1, finish_del (by omega)], by rw [← he.2, finish_del (by omega)]⟩

theorem WfRange.congr {ins ins' : List Instr} {d0 d1 : Nat} (h : WfRange ins d0 d1) (hs : ∀ i, d0 ≤ i → i < d1 → ins'[i]? = ins[i]?) : WfRange ins' d0 d1 where
  two := h.two
  inner := by
    intro i h0 h1
    rw [hs i h0 (by omega)]; exact h.inner i h0 h1
  sinks := by
    have := h.two
    rw [hs (d1 - 2) (by omega) (by omega), hs (d1 - 1) (by omega) (by omega)]
    exact h.sinks

theorem finish_inv {c : Coll} {st : List Instr} (h : CInv c) (hs : SOk st) : CInv (finish c st) where
  first := by
    obtain ⟨h1, h2⟩ := getLast_length_del h
    rw [finish_del (by omega)]; exact h.first
  last := by
    show (c.del ++ _).getLast? = _
    rw [finish_len]; simp
  wf := by
    intro nr hn
    rw [finish_nrBdds h] at hn
    rcases Nat.lt_or_ge nr c.nrBdds with h1 | h1
    · obtain ⟨d0, d1, he, hw⟩ := h.wf nr h1
      refine ⟨d0, d1, finish_old_entry h he, hw.congr ?_⟩
      intro i _ h2
      exact finish_old (by have := hw.len; omega)
    · have : nr = c.nrBdds := by omega
      subst this
      exact ⟨_, _, finish_entry h, finish_wf hs⟩
  stack := rfl
  gen := rfl
  red := rfl
  nrh := h.nrh

/-- What the recursion has built: the stack `st` with the conjunction of `ts` at `root`. -/
structure AndOut (st : List Instr) (root : Nat) (ts : List Tree) : Prop where
  sok : SOk st
  val : AndT st ts root
  last : root + 1 = st.length ∨ st.length = 2
  conn : ∀ j, 2 ≤ j → j < st.length → CReach st root j

/-- The collection at the start of the recursion. -/
def startC (c : Coll) : Coll := { c with stack := [botInstr, topInstr] }

theorem startC_inv {c : Coll} (h : CInv c) : AInv (startC c) where
  sok := SOk.init
  red := by intro e m he; rw [show (startC c).red = [] from h.red] at he; cases he
  red' := by
    intro e m h2 he
    rw [show (startC c).stack = [botInstr, topInstr] from rfl, List.getElem?_eq_none (by simpa using h2)] at he; cases he
  gen := by intro k m he; rw [show (startC c).gen = [] from h.gen] at he; cases he

/-- The outcome of the recursion for all limits. -/
theorem impl_run {impl : Nat → M Coll (Option Nat)} {c : Coll} {ts : List Tree} {B : Nat}
    (hok : ∀ L, AndPost (startC c) L ts (impl L (startC c)))
    (hgrow : ∀ L, CGrow B L (impl L)) (hagree : ∀ L L', CAgree L' (impl L) (impl L')) :
    ∃ st root, AndOut st root ts ∧ ∀ L,
      ((st.length ≤ L ∨ st.length = 2) → ∃ c', impl L (startC c) = .ok (some root) c' ∧ c'.stack = st ∧ Frame c c') ∧
      (¬ (st.length ≤ L ∨ st.length = 2) → ∃ c', impl L (startC c) = .ok none c' ∧ Frame c c') := by
  have hfr : ∀ {c'}, Frame (startC c) c' → Frame c c' := fun h => ⟨h.ins, h.del, h.nrh⟩
  have hB := hok (2 + B)
  have hlen : (startC c).stack.length = 2 := rfl
  cases e : impl (2 + B) (startC c) with
  | throw => rw [e] at hB; exact hB.elim
  | assertFail => rw [e] at hB; exact hB.elim
  | ub => rw [e] at hB; exact hB.elim
  | hang => rw [e] at hB; exact hB.elim
  | ok o c' =>
    have hg := hgrow (2 + B) _ _ _ e
    cases o with
    | none => exact absurd rfl (hg.2.2 (by omega))
    | some root =>
      rw [e] at hB
      obtain ⟨f1, i1, t1, n1, s1, l1, b1, r1⟩ := hB
      have hn : n1 = [] → c'.stack.length = 2 := by rintro rfl; rw [s1]; rfl
      refine ⟨c'.stack, root, ⟨i1.sok, t1, ?_, ?_⟩, ?_⟩
      · rcases l1 with h | h
        · exact Or.inr (hn h)
        · exact Or.inl h
      · intro j h1 h2; exact r1 j h1 h2
      · intro L
        refine ⟨fun h => ⟨c', hagree _ L _ _ _ e h, rfl, hfr f1⟩, fun h => ?_⟩
        have hL := hok L
        cases e' : impl L (startC c) with
        | throw => rw [e'] at hL; exact hL.elim
        | assertFail => rw [e'] at hL; exact hL.elim
        | ub => rw [e'] at hL; exact hL.elim
        | hang => rw [e'] at hL; exact hL.elim
        | ok o c2 =>
          cases o with
          | none => rw [e'] at hL; exact ⟨c2, rfl, hfr hL⟩
          | some k =>
            exfalso
            have g2 := hgrow L _ _ _ e'
            have := hagree L (2 + B) _ _ _ e' (Or.inl (g2.2.1 (by simp)))
            rw [e] at this
            cases this
            rw [e'] at hL
            obtain ⟨_, _, _, n2, s2, _, b2, _⟩ := hL
            rcases b2 with b2 | b2
            · subst b2; exact h (Or.inr (by rw [s2]; rfl))
            · exact h (Or.inl b2)


/-- The trees of the operands. -/
structure Operands (c : Coll) (l ds : List Nat) (ts : List Tree) : Prop where
  dlms : dlms l c = .ok ds c
  wf : ∀ k ∈ ds, InWf c.ins k
  reprs : CReprs c.ins ds ts

/-- The outcome of `bdd_and` of a collection, for every configuration and limit. -/
def AndRun (c : Coll) (st : List Instr) (run : Cfg → Nat → Res Coll (Option Nat)) : Prop :=
  ∀ cfg limit, run cfg limit =
    if cfg.ndebug = false ∧ limit ≤ 2 then .assertFail
    else if st.length ≤ limit ∨ st.length = 2 then
      (if cfg.ndebug = false ∧ st.length = 2 then .assertFail else .ok (some c.nrBdds) (finish c st))
    else .ok none c

theorem dlms_startC {c : Coll} : ∀ {l ds : List Nat}, dlms l c = .ok ds c → dlms l (startC c) = .ok ds (startC c)
  | [], _, h => by cases h; rfl
  | i :: l, ds, h => by
    unfold dlms at h ⊢
    obtain ⟨d, c1, h1, h⟩ := bind_ok_inv h
    have hd : c.del[i]? = some d ∧ c1 = c := by
      unfold dlm at h1
      split at h1
      · rename_i heq; cases h1; exact ⟨heq, rfl⟩
      · cases h1
    obtain ⟨hd, rfl⟩ := hd
    obtain ⟨ds', c2, h2, h⟩ := bind_ok_inv h
    cases h
    have h3 : dlm i (startC c1) = .ok d (startC c1) := by
      unfold dlm
      rw [show (startC c1).del = c1.del from rfl, hd]
    rw [M.bind_ok h3, M.bind_ok (dlms_startC h2)]; rfl

theorem andFinish_run {cfg : Cfg} {c c' : Coll} {root : Nat} (hc : CInv c) (hf : Frame c c') (hs : SOk c'.stack) :
    andFinish cfg (some root) c' = if cfg.ndebug = false ∧ c'.stack.length = 2 then .assertFail else .ok (some c.nrBdds) (finish c c'.stack) := by
  have h2 := hs.two
  unfold andFinish
  show ((M.get : M Coll Coll) >>= _) c' = _
  rw [M.get_bind_apply]
  by_cases hd : cfg.ndebug = false ∧ c'.stack.length = 2
  · rw [if_pos hd]
    show M.bind _ _ _ = _
    simp [M.bind, M.assert, hd.1, hd.2]
  · rw [if_neg hd]
    have ha : (M.assert cfg.ndebug (decide (2 < c'.stack.length)) : M Coll Unit) c' = .ok () c' := by
      unfold M.assert
      cases hn : cfg.ndebug with
      | true => simp
      | false =>
        have : c'.stack.length ≠ 2 := fun h => hd ⟨hn, h⟩
        have : decide (2 < c'.stack.length) = true := by simp; omega
        simp [this]
    rw [M.bind_ok ha]
    have hl : dlmBack c' = .ok c.ins.length c' := by
      unfold dlmBack
      rw [hf.del, hc.last]
    rw [M.bind_ok hl]
    have heq : ({ c' with ins := c'.ins ++ c'.stack.reverse.map (flipInstr (c.ins.length + c'.stack.length)),
                          del := c'.del ++ [(c'.ins ++ c'.stack.reverse.map (flipInstr (c.ins.length + c'.stack.length))).length] } : Coll) =
        { finish c c'.stack with stack := c'.stack, gen := c'.gen, red := c'.red } := by
      simp [finish, hf.ins, hf.del, hf.nrh]
    simp only []
    rw [heq]
    obtain ⟨q1, q2⟩ := getLast_length_del hc
    have hlen : (c'.del ++ [(c'.ins ++ List.map (flipInstr (c.ins.length + c'.stack.length)) c'.stack.reverse).length]).length - 2 = c.nrBdds := by
      rw [hf.del]; simp; omega
    rw [hlen]
    have hb : ({ finish c c'.stack with stack := c'.stack, gen := c'.gen, red := c'.red } : Coll).isBdd c.nrBdds = true :=
      isBdd_ok (d0 := c.ins.length) (d1 := c.ins.length + c'.stack.length) (finish_entry hc) (finish_wf hs)
        (fun i j e h1 h2 h3 h4 h5 h6 h7 => finish_nodup hs i j e h1 h2 h3 h4 h5 h6 h7)
    rw [hb, M.assert_bind_apply rfl]
    rfl

theorem andFinish_none {cfg : Cfg} {c c' : Coll} (hc : CInv c) (hf : Frame c c') : andFinish cfg none c' = .ok none c := by
  show Res.ok none (clearTemps c') = _
  congr 1
  have h1 := hf.ins; have h2 := hf.del; have h3 := hf.nrh; have h4 := hc.stack; have h5 := hc.gen; have h6 := hc.red
  cases c; cases c'
  simp only [clearTemps] at *
  subst_vars; rfl

theorem andStart_run {cfg : Cfg} {c : Coll} {l : List Nat} {limit : Nat} (hc : CInv c) (hl : ∀ i ∈ l, i < c.nrBdds) :
    andStart cfg l limit c = if cfg.ndebug = false ∧ limit ≤ 2 then .assertFail else .ok () (startC c) := by
  unfold andStart
  rw [M.get_bind_apply, M.assert_bind_apply (by simpa using hl)]
  rw [M.assert_bind_apply (by rw [hc.stack]; rfl), M.assert_bind_apply (by rw [hc.gen]; rfl), M.assert_bind_apply (by rw [hc.red]; rfl)]
  by_cases h : cfg.ndebug = false ∧ limit ≤ 2
  · rw [if_pos h]
    show M.bind _ _ _ = _
    simp [M.bind, M.assert, h.1, show ¬ 2 < limit by omega]
  · rw [if_neg h]
    have ha : (M.assert cfg.ndebug (decide (2 < limit)) : M Coll Unit) c = .ok () c := by
      unfold M.assert
      cases hn : cfg.ndebug with
      | true => simp
      | false =>
        have : ¬ limit ≤ 2 := fun h' => h ⟨hn, h'⟩
        have : decide (2 < limit) = true := by simp; omega
        simp [this]
    rw [M.bind_ok ha]
    show Res.ok () _ = _
    rw [hc.stack]; rfl

theorem andG_run {impl : Nat → Nat → List Nat → M Coll (Option Nat)} {c : Coll} {l ds : List Nat} {ts : List Tree} (hc : CInv c)
    (hl : ∀ i ∈ l, i < c.nrBdds) (ho : Operands c l ds ts)
    (hok : ∀ L c', c'.ins = c.ins → AInv c' → AndPost c' L ts (impl L (andFuel c ds) ds c'))
    (hgrow : ∀ L, CGrow (2 ^ (andFuel c ds) - 1) L (impl L (andFuel c ds) ds))
    (hagree : ∀ L L', CAgree L' (impl L (andFuel c ds) ds) (impl L' (andFuel c ds) ds)) :
    ∃ st root, AndOut st root ts ∧ AndRun c st (fun cfg limit => (do
      andStart cfg l limit
      let ds ← dlms l
      let c ← M.get
      let r ← impl limit (andFuel c ds) ds
      andFinish cfg r : M Coll (Option Nat)) c) := by
  obtain ⟨st, root, h1, h2⟩ := impl_run (impl := fun L => impl L (andFuel c ds) ds) (c := c) (ts := ts)
    (fun L => hok L (startC c) rfl (startC_inv hc)) hgrow hagree
  refine ⟨st, root, h1, ?_⟩
  intro cfg limit
  show (andStart cfg l limit >>= _) c = _
  have hst := andStart_run (cfg := cfg) (limit := limit) hc hl
  by_cases hd : cfg.ndebug = false ∧ limit ≤ 2
  · rw [if_pos hd] at hst ⊢
    show M.bind _ _ _ = _
    unfold M.bind
    rw [hst]
  · rw [if_neg hd] at hst ⊢
    rw [M.bind_ok hst, M.bind_ok (dlms_startC ho.dlms), M.get_bind_apply]
    by_cases hk : st.length ≤ limit ∨ st.length = 2
    · obtain ⟨c', e, hs, hf⟩ := (h2 limit).1 hk
      rw [show andFuel (startC c) ds = andFuel c ds from rfl, M.bind_ok e, if_pos hk]
      subst hs
      exact andFinish_run hc hf h1.sok
    · obtain ⟨c', e, hf⟩ := (h2 limit).2 hk
      rw [show andFuel (startC c) ds = andFuel c ds from rfl, M.bind_ok e, if_neg hk]
      exact andFinish_none hc hf

theorem CInv.operands {c : Coll} (hc : CInv c) : ∀ {l : List Nat}, (∀ i ∈ l, i < c.nrBdds) → ∃ ds ts, Operands c l ds ts
  | [], _ => ⟨[], [], rfl, by simp, trivial⟩
  | i :: l, h => by
    obtain ⟨ds, ts, h1, h2, h3⟩ := CInv.operands hc (l := l) (fun j hj => h j (by simp [hj]))
    obtain ⟨d0, d1, he, hw⟩ := hc.wf i (h i (by simp))
    have h2' : InWf c.ins d0 := ⟨d0, d1, hw, Nat.le_refl _, by have := hw.two; omega⟩
    obtain ⟨t, ht⟩ := h2'.repr
    refine ⟨d0 :: ds, t :: ts, ?_, ?_, ht, h3⟩
    · unfold dlms
      have : dlm i c = .ok d0 c := by unfold dlm; rw [he.1]
      rw [M.bind_ok this, M.bind_ok h1]; rfl
    · intro k hk
      rcases List.mem_cons.1 hk with rfl | hk
      · exact h2'
      · exact h2 k hk

theorem bddAnd_run {c : Coll} {i j : Nat} {ds : List Nat} {ts : List Tree} (hc : CInv c) (hi : i < c.nrBdds) (hj : j < c.nrBdds)
    (ho : Operands c [i, j] ds ts) : ∃ st root, AndOut st root ts ∧ AndRun c st (fun cfg limit => bddAnd cfg i j limit c) := by
  have hlen : ∃ f g, ds = [f, g] := by
    have := ho.dlms
    unfold dlms at this
    obtain ⟨f, c1, _, h⟩ := bind_ok_inv this
    obtain ⟨l1, c2, h2, h⟩ := bind_ok_inv h
    unfold dlms at h2
    obtain ⟨g, c3, _, h2⟩ := bind_ok_inv h2
    obtain ⟨l2, c4, h3, h2⟩ := bind_ok_inv h2
    cases h3; cases h2; cases h
    exact ⟨f, g, rfl⟩
  obtain ⟨f, g, rfl⟩ := hlen
  refine andG_run (impl := andImpl2) hc (by simp [hi, hj]) ho ?_ (fun L => andImpl2_grow L _ _ _) (fun L L' => andImpl2_agree L L' _ _ _)
  intro L c' hins hinv
  refine andImpl2_ok _ f g c' ts hinv (by rw [hins]; exact ho.wf) (by rw [hins]; exact ho.reprs) ?_
  rw [hins]
  have := msr_le c.ins [f, g]
  unfold andFuel; omega

theorem bddAndN_run {c : Coll} {l : List Nat} {ds : List Nat} {ts : List Tree} (hc : CInv c) (hl : ∀ i ∈ l, i < c.nrBdds)
    (ho : Operands c l ds ts) : ∃ st root, AndOut st root ts ∧ AndRun c st (fun cfg limit => bddAndN cfg l limit c) := by
  refine andG_run (impl := andImplN) hc hl ho ?_ (fun L => andImplN_grow L _ _) (fun L L' => andImplN_agree L L' _ _)
  intro L c' hins hinv
  refine andImplN_ok _ ds c' ts hinv (by rw [hins]; exact ho.wf) (by rw [hins]; exact ho.reprs) ?_
  rw [hins]
  have := msr_le c.ins ds
  unfold andFuel; omega

/-- Two or more operands. -/
theorem bddAndRange_run {c : Coll} {l : List Nat} {ds : List Nat} {ts : List Tree} (hc : CInv c) (hl : ∀ i ∈ l, i < c.nrBdds)
    (h2 : 2 ≤ l.length) (h49 : l.length ≤ 49)
    (ho : Operands c l ds ts) : ∃ st root, AndOut st root ts ∧ AndRun c st (fun cfg limit => bddAndRange cfg l limit c) := by
  match l, h2 with
  | [a, b], _ => exact bddAnd_run hc (hl a (by simp)) (hl b (by simp)) ho
  | a :: b :: d :: l, _ =>
    have : ∀ cfg limit, bddAndRange cfg (a :: b :: d :: l) limit = bddAndN cfg (a :: b :: d :: l) limit := by
      intro cfg limit
      unfold bddAndRange
      simp only
      rw [if_pos h49]
    simp only [this]
    exact bddAndN_run hc hl ho

end LBDD
