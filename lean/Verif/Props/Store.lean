import Verif.Props.Minimal
import Verif.Props.Ranges
import Verif.Props.Coll
import Verif.Proof.Twin
import Verif.Proof.KeepVars
import Verif.Spec.Store
/-! C81: in histories that do not combine `xor_rec` with `or_rec` and `ite_rec`, the library is a store of Boolean functions. -/
namespace LBDD
section
variable {cfg : Cfg} {u : Use} {a a' : Api} {s s' : Mgr} {p : Nat} {F : BoolFn}

theorem Returns.get {α : Type} {o : Res Mgr α} {P : α → Mgr → Prop} (h : Returns o P) {r : α} (e : o = .ok r s') : P r s' := by
  rw [e] at h; exact h

theorem one_of {m : M Mgr Nat} {rs : List Nat} (e : (m >>= fun r => Pure.pure [r]) s = .ok rs s') : ∃ r, m s = .ok r s' ∧ rs = [r] := by
  obtain ⟨r, s1, e1, e2⟩ := bind_ok_inv e
  cases e2
  exact ⟨r, e1, rfl⟩

theorem none_of {α : Type} {m : M Mgr α} {rs : List Nat} (e : (m >>= fun _ => (Pure.pure [] : M Mgr (List Nat))) s = .ok rs s') : ∃ r, m s = .ok r s' ∧ rs = [] := by
  obtain ⟨r, s1, e1, e2⟩ := bind_ok_inv e
  cases e2
  exact ⟨r, e1, rfl⟩

/-- A call with one result. -/
theorem gives_of {r n' : Nat} {G : BoolFn} (d : Denotes cfg s' r G) : ∃ Gs, Gives n' Gs G ∧ DenotesAll cfg s' [r] Gs :=
  ⟨[G], ⟨G, rfl, .refl _ _⟩, d, trivial⟩

/-! ### Import of a collection entry -/

/-- The map of `bdd_mgr::add_bdd`: the value of what it contains relates to the value of the position by `E`. -/
def FnMap (E : Bool → Bool → Prop) (c : Coll) (cells : Nat → Cell) (h : List (Nat × Nat)) : Prop :=
  ∀ j r, h.lookup j = some r → ∃ t t', CRepr c.ins j t ∧ Repr cells r t' ∧ ∀ x, E (t'.eval x) (t.eval x)

theorem FnMap.ext {E : Bool → Bool → Prop} {c : Coll} {cells cells' : Nat → Cell} {h : List (Nat × Nat)} (hm : FnMap E c cells h) (hx : CellsExt cells cells') : FnMap E c cells' h := by
  intro j r e
  obtain ⟨t, t', h1, h2, h3⟩ := hm j r e
  exact ⟨t, t', h1, h2.ext hx, h3⟩

theorem FnMap.insert {E : Bool → Bool → Prop} {c : Coll} {cells : Nat → Cell} {h : List (Nat × Nat)} (hm : FnMap E c cells h) {k r : Nat} {t t' : Tree} (h1 : CRepr c.ins k t)
    (h2 : Repr cells r t') (h3 : ∀ x, E (t'.eval x) (t.eval x)) : FnMap E c cells (insertNew h k r) := by
  intro j q e
  rw [insertNew_lookup] at e
  cases hj : h.lookup j with
  | some q' =>
    rw [hj] at e
    cases e
    exact hm j _ hj
  | none =>
    rw [hj] at e
    by_cases hk : j = k
    · subst hk
      simp at e
      subst e
      exact ⟨t, t', h1, h2, h3⟩
    · simp [hk] at e

/-- The number of variables after importing the positions `d0 .. d0+k-1`. -/
structure ImpVars (c : Coll) (d0 k n n' : Nat) : Prop where
  ge : n ≤ n'
  all : ∀ i e, d0 ≤ i → i < d0 + k → c.ins[i]? = some e → e.Inner → e.index < n'
  least : n' = n ∨ ∃ i e, d0 ≤ i ∧ i < d0 + k ∧ c.ins[i]? = some e ∧ e.Inner ∧ n' = e.index + 1

/-- The relation between the value of an imported BDD and the value of the entry is kept by `ite_rec`. -/
structure IteRel (md : Md) (E : Bool → Bool → Prop) : Prop extends SemIte md where
  refl : ∀ a, E a a
  step : ∀ v l h l' h' r, E l' l → E h' h → iteSem md.sem v h' l' r → E r (if v then h else l)

theorem OrMode.iteRel {md : Md} (om : OrMode md) : IteRel md (fun a b => a = b) where
  toSemIte := om.semIte
  refl := fun _ => rfl
  step := by
    rintro v l h _ _ r rfl rfl hr
    rw [om.sem] at hr
    rcases hr with hr | ⟨rfl, rfl, rfl, hr⟩
    · exact hr
    · simpa using hr

theorem importLoop_means {E : Bool → Bool → Prop} {refs : Nat → Nat} {c : Coll} {nr d0 d1 : Nat} (om : IteRel u.md E) (hw : c.Wf nr) (he : c.Entry nr d0 d1) (hv : ∀ v, c.Var nr v → v < topsinkIndex) :
    ∀ (k : Nat) (s : Mgr) (h : List (Nat × Nat)), d0 + k ≤ d1 → Inv cfg u.md refs s → FnMap E c s.cells h →
      Lib cfg u.md refs (importLoop cfg c d0 k h) s (fun h' s' => FnMap E c s'.cells h' ∧ ImpVars c d0 k s.nvars s'.nvars) := by
  have hr := hw.entry he
  intro k
  induction k with
  | zero => intro s h _ hi hm; exact Lib.pure hi ⟨hm, Nat.le_refl _, fun i e h1 h2 => by omega, Or.inl rfl⟩
  | succ k ih =>
    intro s h hk hi hm
    obtain ⟨e, ha, _⟩ := hr.cases (i := d0 + k) (by omega) (by omega)
    have hins : ∀ s : Mgr, insOf c (d0 + k) s = .ok e s := by intro s; unfold insOf; rw [ha]
    have skip : ¬ e.Inner → ∀ {n n' : Nat}, ImpVars c d0 k n n' → ImpVars c d0 (k + 1) n n' := by
      intro hin n n' hn
      refine ⟨hn.ge, fun i e' h1 h2 h3 h4 => ?_, ?_⟩
      · by_cases hk : i = d0 + k
        · subst hk
          rw [ha] at h3; cases h3
          exact absurd h4 hin
        · exact hn.all i e' h1 (by omega) h3 h4
      · rcases hn.least with h | ⟨i, e', h1, h2, h3⟩
        · exact Or.inl h
        · exact Or.inr ⟨i, e', h1, by omega, h3⟩
    by_cases hb : e.isBot = true
    · have hin : ¬ e.Inner := fun h => h.1 (by simpa [Instr.isBot] using hb)
      unfold importLoop
      refine Lib.read_bind (hins s) ?_
      rw [if_pos hb]
      refine (ih s _ (by omega) hi (hm.insert (.bot ha (by simpa [Instr.isBot] using hb)) .bot (fun _ => om.refl _))).mono ?_
      rintro h' s' ⟨a, b⟩
      exact ⟨a, skip hin b⟩
    · by_cases ht : e.isTop = true
      · have hin : ¬ e.Inner := fun h => h.2 (by simpa [Instr.isTop] using ht)
        unfold importLoop
        refine Lib.read_bind (hins s) ?_
        rw [if_neg hb, if_pos ht]
        refine (ih s _ (by omega) hi (hm.insert (.top ha (by simpa [Instr.isTop] using ht)) .top (fun _ => om.refl _))).mono ?_
        rintro h' s' ⟨a, b⟩
        exact ⟨a, skip hin b⟩
      · have hin : e.Inner := ⟨by simpa [Instr.isBot] using hb, by simpa [Instr.isTop] using ht⟩
        unfold importLoop
        refine Lib.read_bind (hins s) ?_
        rw [if_neg hb, if_neg ht]
        refine Lib.assert_bind ?_
        cases g1 : h.lookup e.lo with
        | none =>
          intro a s' e'
          obtain ⟨_, _, _, e'⟩ := bind_ok_inv e'
          cases e'
        | some lo =>
          cases g2 : h.lookup e.hi with
          | none =>
            intro a s' e'
            obtain ⟨_, _, _, e'⟩ := bind_ok_inv e'
            cases e'
          | some hi' =>
            obtain ⟨tl, tl', l1, l2, l3⟩ := hm _ _ g1
            obtain ⟨th, th', r1, r2, r3⟩ := hm _ _ g2
            show Lib cfg u.md refs (projection cfg e.index >>= fun v => iteOp cfg v hi' lo >>= fun r => importLoop cfg c d0 k (insertNew h (d0 + k) r)) s _
            refine Lib.bind (projection_ok hi (hv _ ⟨_, e, ⟨d0, d1, he, by omega, by omega, ha⟩, hin, rfl⟩)).lib ?_
            rintro v s1 g1 hi1 ⟨hrv, hnv, hnew1⟩
            refine Lib.bind (SpecB.libN (iteOp_okBT om.toSemIte True hi1 hrv (r2.ext g1.cells) (l2.ext g1.cells) (Or.inl trivial))) ?_
            rintro r s2 g2 hi2 ⟨⟨tr, hrr, hev, _⟩, hn2⟩
            have htr : ∀ x, E (tr.eval x) ((Tree.node e.index tl th).eval x) := by
              intro x
              have h1 : (Tree.node e.index Tree.bot Tree.top).eval x = x e.index := by
                show (if x e.index then true else false) = _
                cases x e.index <;> rfl
              have h2 := hev x
              rw [h1] at h2
              exact om.step _ _ _ _ _ _ (l3 x) (r3 x) h2
            refine (ih s2 _ (by omega) hi2 (((hm.ext g1.cells).ext g2.cells).insert (.node ha hin l1 r1) hrr htr)).mono ?_
            rintro h3 s3 ⟨q1, q2⟩
            rw [hn2, hnv] at q2
            refine ⟨q1, by have := q2.ge; omega, fun i e' h1 h2 h3 h4 => ?_, ?_⟩
            · by_cases hk : i = d0 + k
              · subst hk
                rw [ha] at h3; cases h3
                have := q2.ge; omega
              · exact q2.all i e' h1 (by omega) h3 h4
            · rcases q2.least with h | ⟨i, e', h1, h2, h3⟩
              · by_cases hm : e.index + 1 ≤ s.nvars
                · exact Or.inl (by omega)
                · exact Or.inr ⟨d0 + k, e, by omega, by omega, ha, hin, by omega⟩
              · exact Or.inr ⟨i, e', h1, by omega, h3⟩

theorem mgrAddBdd_means {E : Bool → Bool → Prop} {refs : Nat → Nat} {c : Coll} {nr : Nat} (om : IteRel u.md E) (hi : Inv cfg u.md refs s) (hw : c.Wf nr) (hv : ∀ v, c.Var nr v → v < topsinkIndex)
    {r : Nat} (e : mgrAddBdd cfg c nr s = .ok r s') : Inv cfg u.md refs s' ∧ ∃ d0 d1 t t', c.Entry nr d0 d1 ∧ CRepr c.ins d0 t ∧ Repr s'.cells r t' ∧ (∀ x, E (t'.eval x) (t.eval x)) ∧
      s.nvars ≤ s'.nvars ∧ (∀ v, c.Var nr v → v < s'.nvars) ∧ (s'.nvars = s.nvars ∨ ∃ v, c.Var nr v ∧ s'.nvars = v + 1) := by
  obtain ⟨d0, d1, he, hr⟩ := id hw
  have two := hr.two
  have key : Lib cfg u.md refs (mgrAddBdd cfg c nr) s (fun r s' => ImpVars c d0 (d1 - d0) s.nvars s'.nvars ∧ ∃ t t', CRepr c.ins d0 t ∧ Repr s'.cells r t' ∧ ∀ x, E (t'.eval x) (t.eval x)) := by
    unfold mgrAddBdd
    refine Lib.assert_bind ?_
    refine Lib.read_bind (a := d0) (by unfold dlmOf; rw [he.1]) ?_
    refine Lib.read_bind (a := d1) (by unfold dlmOf; rw [he.2]) ?_
    refine Lib.bind (importLoop_means om hw he hv (d1 - d0) s [] (by omega) hi (fun j r h => by simp at h)) ?_
    rintro h s1 g1 hi1 ⟨a, b⟩
    split
    · rename_i r e1
      exact Lib.pure hi1 ⟨b, a _ _ e1⟩
    · intro a s' e
      obtain ⟨_, _, _, e⟩ := bind_ok_inv e
      cases e
  obtain ⟨_, i, b, t, t', h1, h2, h3⟩ := key _ _ e
  refine ⟨i, d0, d1, t, t', he, h1, h2, h3, b.ge, ?_, ?_⟩
  · rintro v ⟨j, e', ⟨x0, x1, hx, k1, k2, k3⟩, hin, rfl⟩
    obtain ⟨rfl, rfl⟩ := he.unique hx
    exact b.all j e' k1 (by omega) k3 hin
  · rcases b.least with h | ⟨j, e', k1, k2, k3, k4, k5⟩
    · exact Or.inl h
    · exact Or.inr ⟨_, ⟨j, e', ⟨d0, d1, he, k1, by omega, k3⟩, k4, rfl⟩, k5⟩

/-! ### Single calls -/

theorem len_of {f : Fn} {k : Nat} (hub : ∀ ps, ps.length ≠ k → f.run cfg ps = M.ub) {ps rs : List Nat} (e : f.run cfg ps s = .ok rs s') : ps.length = k := by
  by_cases h : ps.length = k
  · exact h
  · rw [hub ps h] at e; cases e

theorem shape0 {ps : List Nat} {Fs : List BoolFn} (hd : DenotesAll cfg s ps Fs) (h : ps.length = 0) : ps = [] ∧ Fs = [] := by
  match ps, Fs, hd, h with
  | [], [], _, _ => exact ⟨rfl, rfl⟩

theorem shape1 {ps : List Nat} {Fs : List BoolFn} (hd : DenotesAll cfg s ps Fs) (h : ps.length = 1) : ∃ p F, ps = [p] ∧ Fs = [F] ∧ Denotes cfg s p F := by
  match ps, Fs, hd, h with
  | [p], [F], hd, _ => exact ⟨p, F, rfl, rfl, hd.1⟩
  | [p], _ :: _ :: _, hd, _ => exact hd.2.elim

theorem shape2 {ps : List Nat} {Fs : List BoolFn} (hd : DenotesAll cfg s ps Fs) (h : ps.length = 2) :
    ∃ p q F G, ps = [p, q] ∧ Fs = [F, G] ∧ Denotes cfg s p F ∧ Denotes cfg s q G := by
  match ps, Fs, hd, h with
  | [p, q], F :: Fs, hd, _ =>
    obtain ⟨q', G, h1, h2, h3⟩ := shape1 hd.2 rfl
    cases h1
    exact ⟨p, q, F, G, rfl, by rw [h2], hd.1, h3⟩

theorem shape3 {ps : List Nat} {Fs : List BoolFn} (hd : DenotesAll cfg s ps Fs) (h : ps.length = 3) :
    ∃ p q r F G H, ps = [p, q, r] ∧ Fs = [F, G, H] ∧ Denotes cfg s p F ∧ Denotes cfg s q G ∧ Denotes cfg s r H := by
  match ps, Fs, hd, h with
  | [p, q, r], F :: Fs, hd, _ =>
    obtain ⟨q', r', G, H, h1, h2, h3, h4⟩ := shape2 hd.2 rfl
    cases h1
    exact ⟨p, q, r, F, G, H, rfl, by rw [h2], hd.1, h3, h4⟩

local macro "hub0" : tactic => `(tactic| (intro ps h; match ps, h with
  | [], h => exact (h rfl).elim
  | _ :: _, _ => rfl))
local macro "hub1" : tactic => `(tactic| (intro ps h; match ps, h with
  | [], _ => rfl
  | [_], h => exact (h rfl).elim
  | _ :: _ :: _, _ => rfl))
local macro "hub2" : tactic => `(tactic| (intro ps h; match ps, h with
  | [], _ => rfl
  | [_], _ => rfl
  | [_, _], h => exact (h rfl).elim
  | _ :: _ :: _ :: _, _ => rfl))
local macro "hub3" : tactic => `(tactic| (intro ps h; match ps, h with
  | [], _ => rfl
  | [_], _ => rfl
  | [_, _], _ => rfl
  | [_, _, _], h => exact (h rfl).elim
  | _ :: _ :: _ :: _ :: _, _ => rfl))

/-- A call with one result that does not change the number of variables. -/
theorem plain_of {m : M Mgr Nat} [Nvk m] {rs : List Nat} {G : BoolFn} (e : (m >>= fun r => Pure.pure [r]) s = .ok rs s')
    (h : ∀ r, m s = .ok r s' → Denotes cfg s' r G) : s'.nvars = s.nvars ∧ ∃ Gs, Gives s'.nvars Gs G ∧ DenotesAll cfg s' rs Gs := by
  obtain ⟨r, e1, rfl⟩ := one_of e; clear e; have e := e1; clear e1
  exact ⟨Nvk.at' (m := m) _ _ _ e, gives_of (h r e)⟩

theorem pairs_denotesAll : ∀ {l : List Nat} {Gs : List BoolFn}, Pairs (fun q G => Denotes cfg s q G) l Gs → DenotesAll cfg s l Gs
  | [], [], _ => trivial
  | _ :: _, _ :: _, h => ⟨h.1, pairs_denotesAll h.2⟩
  | [], _ :: _, h => h.elim
  | _ :: _, [], h => h.elim

/-- Held handles denote functions, whatever the functions are. -/
theorem anys_denotesAll {md : Md} {refs : Nat → Nat} (hi : Inv cfg md refs s) : ∀ {l : List Nat}, (∀ q ∈ l, Any s.cells q) → ∃ Gs, DenotesAll cfg s l Gs
  | [], _ => ⟨[], trivial⟩
  | q :: l, h => by
    obtain ⟨t, ht⟩ := h q List.mem_cons_self
    obtain ⟨Gs, hG⟩ := anys_denotesAll hi (fun q hq => h q (List.mem_cons_of_mem _ hq))
    exact ⟨_ :: Gs, denotes_repr hi ht, hG⟩

theorem low_sink {md : Md} {refs : Nat → Nat} (hi : Inv cfg md refs s) {r : Nat} (e : lowOf p s = .ok r s') : p ≠ botId ∧ p ≠ topId := by
  constructor <;> intro h <;> subst h
  · exact lowOf_sink hi (by decide : botId < 2) (M.bind_ok e)
  · exact lowOf_sink hi (by decide : topId < 2) (M.bind_ok e)

theorem high_sink {md : Md} {refs : Nat → Nat} (hi : Inv cfg md refs s) {r : Nat} (e : highOf p s = .ok r s') : p ≠ botId ∧ p ≠ topId := by
  constructor <;> intro h <;> subst h
  · exact highOf_sink hi (by decide : botId < 2) (M.bind_ok e)
  · exact highOf_sink hi (by decide : topId < 2) (M.bind_ok e)

/-- The functions whose result does not depend on the memo entries that `or_rec` and `xor_rec` share. -/
def Fn.Exact : Fn → Prop
  | .or | .xor | .ite | .orRange | .orAll | .xorRange | .xorAll | .atMostOne | .simplex | .atLeast _ | .atMost _ | .importBdd _ _ => False
  | _ => True

theorem ou_of (hu : u ≠ .mixed) (h : u ≠ .parity) : u = .ordered ∨ u = .unordered := by cases u <;> simp_all
theorem xu_of (hu : u ≠ .mixed) (h : u = .parity ∨ u = .mixed) : u = .parity := h.resolve_right hu

/-- Every successful call means what `Fn.Means` says. -/
theorem Fn.run_means (f : Fn) (hu : u = .mixed → f.Exact) (hR : Reachable cfg u a) {ps : List Nat} {Fs : List BoolFn} (hh : ∀ p ∈ ps, a.Holds p) (hd : DenotesAll cfg a.mgr ps Fs)
    (hpre : f.Pre cfg u a.mgr ps) {rs : List Nat} (e : f.run cfg ps a.mgr = .ok rs s') :
    ∃ Gs, f.Means cfg (u = .ordered) a.mgr.nvars Fs s'.nvars Gs ∧ DenotesAll cfg s' rs Gs := by
  have hi := hR.good
  cases f with
  | addVariable =>
    obtain ⟨rfl, rfl⟩ := shape0 hd (len_of (by hub0) e)
    obtain ⟨r, e1, rfl⟩ := none_of e; clear e; have e := e1; clear e1
    exact ⟨[], ⟨rfl, ((C06_addVariable_correct hR hpre).get e).2.1, rfl⟩, trivial⟩
  | botsink =>
    obtain ⟨rfl, rfl⟩ := shape0 hd (len_of (by hub0) e)
    cases e
    obtain ⟨Gs, h1, h2⟩ := gives_of (n' := a.mgr.nvars) (C66_sinks_constant hR).1
    exact ⟨Gs, ⟨rfl, rfl, h1⟩, h2⟩
  | topsink =>
    obtain ⟨rfl, rfl⟩ := shape0 hd (len_of (by hub0) e)
    cases e
    obtain ⟨Gs, h1, h2⟩ := gives_of (n' := a.mgr.nvars) (C66_sinks_constant hR).2
    exact ⟨Gs, ⟨rfl, rfl, h1⟩, h2⟩
  | projection v =>
    obtain ⟨rfl, rfl⟩ := shape0 hd (len_of (by hub0) e)
    obtain ⟨r, e1, rfl⟩ := one_of e; clear e; have e := e1; clear e1
    obtain ⟨h1, h2, _⟩ := (C06_projection_correct hR hpre).get e
    obtain ⟨Gs, h3, h4⟩ := gives_of (n' := s'.nvars) h1
    exact ⟨Gs, ⟨rfl, h2, h3⟩, h4⟩
  | negProjection v =>
    obtain ⟨rfl, rfl⟩ := shape0 hd (len_of (by hub0) e)
    obtain ⟨h1, Gs, h2, h3⟩ := plain_of e fun r e => (C06_negProjection_correct hR hpre).get e
    exact ⟨Gs, ⟨rfl, h1, h2⟩, h3⟩
  | uniqueFind v =>
    obtain ⟨p, q, L, H, rfl, rfl, dL, dH⟩ := shape2 hd (len_of (by hub2) e)
    have key : ∀ r, mgrUniqueFind cfg v p q a.mgr = .ok r s' → Denotes cfg s' r (fun x => if x.getD v false then H x else L x) := by
      intro r e
      obtain ⟨tl, rl⟩ := hi.any (hh p (by simp))
      obtain ⟨th, rh⟩ := hi.any (hh q (by simp))
      have ho : u.md.ordered → ∀ w, tl.Mem w ∨ th.Mem w → v < w := by
        intro ho w hw
        rcases hw with hw | hw
        · exact hpre.2 (Use.ordered_iff.1 ho) p (by simp) w ((occurs_iff rl w).2 hw)
        · exact hpre.2 (Use.ordered_iff.1 ho) q (by simp) w ((occurs_iff rh w).2 hw)
      obtain ⟨g, hi', ⟨h1, _⟩, hn⟩ := (mgrUniqueFind_ok hi hpre.1 rl rh ho).libN _ _ e
      intro x hc
      have hc' : Covers a.mgr x := hc.anti (Nat.le_of_eq hn.symm)
      have e1 := dL.eq (denotes_repr hi rl) hc'
      have e2 := dH.eq (denotes_repr hi rh) hc'
      show EvalsTo cfg s' r x (if x.getD v false then H x else L x)
      have : (mkTree v tl th).eval (asg x) = if x.getD v false then H x else L x := by
        rw [e1, e2]
        exact mkTree_eval _ _ _ _
      rw [← this]
      exact evals_repr hi' h1 hc
    obtain ⟨h1, Gs, h2, h3⟩ := plain_of e key
    exact ⟨Gs, ⟨L, H, rfl, h1, h2⟩, h3⟩
  | negate =>
    obtain ⟨p, F, rfl, rfl, dF⟩ := shape1 hd (len_of (by hub1) e)
    obtain ⟨h1, Gs, h2, h3⟩ := plain_of e fun r e => ((C03_negate_correct hR (hh p (by simp)) dF).get e).1
    exact ⟨Gs, ⟨F, rfl, h1, h2⟩, h3⟩
  | and =>
    obtain ⟨p, q, F, G, rfl, rfl, dF, dG⟩ := shape2 hd (len_of (by hub2) e)
    obtain ⟨h1, Gs, h2, h3⟩ := plain_of e fun r e => (C01_and_correct hR (hh p (by simp)) (hh q (by simp)) dF dG).get e
    exact ⟨Gs, ⟨F, G, rfl, h1, h2⟩, h3⟩
  | or =>
    obtain ⟨p, q, F, G, rfl, rfl, dF, dG⟩ := shape2 hd (len_of (by hub2) e)
    obtain ⟨h1, Gs, h2, h3⟩ := plain_of e fun r e => (C02_or_correct_partial hR (ou_of hu hpre) (hh p (by simp)) (hh q (by simp)) dF dG).get e
    exact ⟨Gs, ⟨F, G, rfl, h1, h2⟩, h3⟩
  | xor =>
    obtain ⟨p, q, F, G, rfl, rfl, dF, dG⟩ := shape2 hd (len_of (by hub2) e)
    have hx := xu_of hu hpre
    subst hx
    obtain ⟨h1, Gs, h2, h3⟩ := plain_of e fun r e => (C04_xor_correct_partial hR (hh p (by simp)) (hh q (by simp)) dF dG).get e
    exact ⟨Gs, ⟨F, G, rfl, h1, h2⟩, h3⟩
  | ite =>
    obtain ⟨p, q, r, F, G, H, rfl, rfl, dF, dG, dH⟩ := shape3 hd (len_of (by hub3) e)
    obtain ⟨h1, Gs, h2, h3⟩ := plain_of e fun r e => C05_ite_if_returns_partial hR (ou_of hu hpre) (hh p (by simp)) (hh q (by simp)) (hh _ (by simp)) dF dG dH e
    exact ⟨Gs, ⟨F, G, H, rfl, h1, h2⟩, h3⟩
  | andRange =>
    obtain ⟨h1, Gs, h2, h3⟩ := plain_of e fun r e => (C15_and_range hR hh hd hpre).get e
    exact ⟨Gs, ⟨h1, h2⟩, h3⟩
  | orRange =>
    obtain ⟨h1, Gs, h2, h3⟩ := plain_of e fun r e => (C15_or_range_partial hR (ou_of hu hpre.2) hh hd hpre.1).get e
    exact ⟨Gs, ⟨h1, h2⟩, h3⟩
  | xorRange =>
    have hx := xu_of hu hpre.2
    subst hx
    obtain ⟨h1, Gs, h2, h3⟩ := plain_of e fun r e => (C15_xor_range_partial hR hh hd hpre.1).get e
    exact ⟨Gs, ⟨h1, h2⟩, h3⟩
  | andAll =>
    obtain ⟨h1, Gs, h2, h3⟩ := plain_of e fun r e => (C15_and_variadic hR hh hd hpre).get e
    exact ⟨Gs, ⟨h1, h2⟩, h3⟩
  | orAll =>
    obtain ⟨h1, Gs, h2, h3⟩ := plain_of e fun r e => (C15_or_variadic_partial hR (ou_of hu hpre.2) hh hd hpre.1).get e
    exact ⟨Gs, ⟨h1, h2⟩, h3⟩
  | xorAll =>
    have hx := xu_of hu hpre.2
    subst hx
    obtain ⟨h1, Gs, h2, h3⟩ := plain_of e fun r e => (C15_xor_variadic_partial hR hh hd hpre.1).get e
    exact ⟨Gs, ⟨h1, h2⟩, h3⟩
  | allFalse =>
    obtain ⟨h1, Gs, h2, h3⟩ := plain_of e fun r e => (C16_all_false hR hh hd hpre).get e
    exact ⟨Gs, ⟨h1, h2⟩, h3⟩
  | atMostOne =>
    obtain ⟨h1, Gs, h2, h3⟩ := plain_of e fun r e => (C17_at_most_one_partial hR (ou_of hu hpre.2) hh hd hpre.1).get e
    exact ⟨Gs, ⟨h1, h2⟩, h3⟩
  | atLeastOne =>
    obtain ⟨h1, Gs, h2, h3⟩ := plain_of e fun r e => (C16_at_least_one hR hh hd hpre).get e
    exact ⟨Gs, ⟨h1, h2⟩, h3⟩
  | simplex =>
    obtain ⟨h1, Gs, h2, h3⟩ := plain_of e fun r e => (C17_simplex_partial hR (ou_of hu hpre.2) hh hd hpre.1).get e
    exact ⟨Gs, ⟨h1, h2⟩, h3⟩
  | atLeast b =>
    obtain ⟨h1, Gs, h2, h3⟩ := plain_of e fun r e => (C18_at_least_partial hR (ou_of hu hpre.2) hh hd hpre.1 b).get e
    exact ⟨Gs, ⟨h1, h2⟩, h3⟩
  | atMost b =>
    have hlen := hd.length
    obtain ⟨h1, Gs, h2, h3⟩ := plain_of (G := fun x => decide (b ≤ Fs.length) && decide (countTrue Fs x ≤ b)) e fun r e => by
      by_cases hb : b ≤ ps.length
      · refine ((C19_at_most_partial hR (ou_of hu hpre.2) hh hd hpre.1 hb).get e).congr fun x _ => ?_
        rw [show decide (b ≤ Fs.length) = true from decide_eq_true (by omega), Bool.true_and]
      · refine ((C19_large_bound hR (ou_of hu hpre.2) hh hd hpre.1 (by omega)).get e).congr fun x _ => ?_
        rw [show decide (b ≤ Fs.length) = false from decide_eq_false (by omega), Bool.false_and]
    exact ⟨Gs, ⟨h1, h2⟩, h3⟩
  | cardinality b =>
    obtain ⟨h1, Gs, h2, h3⟩ := plain_of e fun r e => (C20_cardinality hR hh hd hpre.1 b).get e
    exact ⟨Gs, ⟨h1, h2⟩, h3⟩
  | rebaseMap m =>
    obtain ⟨p, F, rfl, rfl, dF⟩ := shape1 hd (len_of (by hub1) e)
    obtain ⟨k1, k2, k3, k4⟩ := hpre p (by simp)
    obtain ⟨r, e1, rfl⟩ := one_of e; clear e; have e := e1; clear e1
    have hf : ∀ v, Occurs a.mgr p v → m.lookup v = some ((m.lookup v).getD 0) := by
      intro v hv
      obtain ⟨w, hw⟩ := k2 v hv
      rw [hw]; rfl
    obtain ⟨h1, h2, _⟩ := (C29_rebase_map hR (hh p (by simp)) k1 dF hf k3 (fun ho v w hv hw hvw => k4 ho v w _ _ hv hw hvw (hf v hv) (hf w hw))).get e
    obtain ⟨Gs, h3, h4⟩ := gives_of (n' := s'.nvars) h1
    exact ⟨Gs, ⟨F, rfl, h2, h3⟩, h4⟩
  | rebaseVec m =>
    obtain ⟨p, F, rfl, rfl, dF⟩ := shape1 hd (len_of (by hub1) e)
    obtain ⟨k1, hne, k2, k3, k4⟩ := hpre p (by simp)
    obtain ⟨r, e1, rfl⟩ := one_of e; clear e; have e := e1; clear e1
    have hf : ∀ v, Occurs a.mgr p v → m[v]? = some (m.getD v 0) := by
      intro v hv
      have := k2 v hv
      simp [List.getD, this]
    obtain ⟨h1, h2, _⟩ := (C29_rebase_vec hR (hh p (by simp)) k1 dF hne k2 k3 (fun ho v w hv hw hvw => k4 ho v w _ _ hv hw hvw (hf v hv) (hf w hw))).get e
    obtain ⟨Gs, h3, h4⟩ := gives_of (n' := s'.nvars) h1
    exact ⟨Gs, ⟨F, rfl, h2, h3⟩, h4⟩
  | andLimited n =>
    obtain ⟨p, q, F, G, rfl, rfl, dF, dG⟩ := shape2 hd (len_of (by hub2) e)
    obtain ⟨tf, rf⟩ := hi.any (hh p (by simp))
    obtain ⟨tg, rg⟩ := hi.any (hh q (by simp))
    obtain ⟨o, s1, e1, e2⟩ := bind_ok_inv e
    have hn : s1.nvars = a.mgr.nvars := by
      have h := andLimited_okA (bad := True) (Or.inl trivial) hi rf rg n
      unfold SpecA at h
      rw [e1] at h
      exact h.1.nvars
    cases o with
    | none =>
      cases e2
      exact ⟨[], ⟨F, G, rfl, hn, Or.inl rfl⟩, trivial⟩
    | some rk =>
      obtain ⟨r, k⟩ := rk
      cases e2
      obtain ⟨Gs, h3, h4⟩ := gives_of (n' := s'.nvars) (C22_limited_correct hR (hh p (by simp)) (hh q (by simp)) dF dG e1).1
      exact ⟨Gs, ⟨F, G, rfl, hn, Or.inr h3⟩, h4⟩
  | nrNodes =>
    obtain ⟨p, F, rfl, rfl, dF⟩ := shape1 hd (len_of (by hub1) e)
    obtain ⟨t, ht⟩ := hi.any (hh p (by simp))
    obtain ⟨r, e1, rfl⟩ := none_of e; clear e; have e := e1; clear e1
    obtain ⟨l, _, e'⟩ := nrNodes_ok hi ht (.of hi (hpre p (by simp)))
    rw [e'] at e; cases e
    exact ⟨[], ⟨F, rfl, rfl, rfl⟩, trivial⟩
  | nodesPostorder =>
    obtain ⟨p, F, rfl, rfl, dF⟩ := shape1 hd (len_of (by hub1) e)
    have e : LBDD.nodesPostorder cfg p a.mgr = .ok rs s' := e
    by_cases ho : u = .ordered
    · subst ho
      obtain ⟨l, Gs, h1, h2, h3⟩ := C80_postorder hR (hh p (by simp)) dF (hpre p (by simp))
      rw [h1] at e; cases e
      exact ⟨Gs, ⟨F, rfl, rfl, fun _ => h2⟩, pairs_denotesAll h3⟩
    · obtain ⟨l, h1, h2, _⟩ := C25_nodes_postorder hR (hh p (by simp)) (hpre p (by simp))
      rw [h1] at e; cases e
      obtain ⟨t, ht⟩ := hi.any (hh p (by simp))
      obtain ⟨Gs, h3⟩ := anys_denotesAll hi (fun q hq => hi.repr (((h2.2 q).1 hq).2.live_or hi ht))
      exact ⟨Gs, ⟨F, rfl, rfl, fun h => absurd h ho⟩, h3⟩
  | nodesBfs =>
    obtain ⟨p, F, rfl, rfl, dF⟩ := shape1 hd (len_of (by hub1) e)
    have e : LBDD.nodesBfs cfg p a.mgr = .ok rs s' := e
    obtain ⟨l, h1, h2, _⟩ := C26_nodes_bfs hR (hh p (by simp)) (hpre p (by simp))
    rw [h1] at e; cases e
    obtain ⟨t, ht⟩ := hi.any (hh p (by simp))
    by_cases ho : u = .ordered
    · subst ho
      obtain ⟨Gs, h3, h4⟩ := residuals_of (Use.ordered_iff.2 rfl) hi ht dF ⟨h2.1, h2.2⟩
      exact ⟨Gs, ⟨F, rfl, rfl, fun _ => h3⟩, pairs_denotesAll h4⟩
    · obtain ⟨Gs, h3⟩ := anys_denotesAll hi (fun q hq => hi.repr (((h2.2 q).1 hq).2.live_or hi ht))
      exact ⟨Gs, ⟨F, rfl, rfl, fun h => absurd h ho⟩, h3⟩
  | variables =>
    obtain ⟨p, F, rfl, rfl, dF⟩ := shape1 hd (len_of (by hub1) e)
    obtain ⟨t, ht⟩ := hi.any (hh p (by simp))
    obtain ⟨r, e1, rfl⟩ := none_of e; clear e; have e := e1; clear e1
    obtain ⟨l, e', _⟩ := variables_ok (cfg := cfg) hi ht
    rw [e'] at e; cases e
    exact ⟨[], ⟨F, rfl, rfl, rfl⟩, trivial⟩
  | exactlyOneSolution =>
    obtain ⟨p, F, rfl, rfl, dF⟩ := shape1 hd (len_of (by hub1) e)
    obtain ⟨t, ht⟩ := hi.any (hh p (by simp))
    obtain ⟨r, e1, rfl⟩ := none_of e; clear e; have e := e1; clear e1
    obtain ⟨l, e'⟩ := exactlyOneSolution_same (cfg := cfg) hi ht
    rw [e'] at e; cases e
    exact ⟨[], ⟨F, rfl, rfl, rfl⟩, trivial⟩
  | print =>
    obtain ⟨p, F, rfl, rfl, dF⟩ := shape1 hd (len_of (by hub1) e)
    obtain ⟨t, ht⟩ := hi.any (hh p (by simp))
    obtain ⟨r, e1, rfl⟩ := none_of e; clear e; have e := e1; clear e1
    obtain ⟨l, e', _⟩ := printArcs_ok (cfg := cfg) hi ht
    rw [e'] at e; cases e
    exact ⟨[], ⟨F, rfl, rfl, rfl⟩, trivial⟩
  | low =>
    obtain ⟨p, F, rfl, rfl, dF⟩ := shape1 hd (len_of (by hub1) e)
    obtain ⟨r, e1, rfl⟩ := one_of e; clear e; have e := e1; clear e1
    obtain ⟨hb, ht⟩ := low_sink hi e
    obtain ⟨v, l, h, L, H, k1, k2, _, k4, _, k6, k7, k8⟩ := C65_walk hR (hh p (by simp)) hb ht dF
    rw [k2] at e; cases e
    refine ⟨[L], ⟨F, L, v, rfl, rfl, rfl, k4, ?_, ?_⟩, k6, trivial⟩
    · intro x hx hf
      rw [k8 x hx, if_neg]
      intro h; rw [List.getD_eq_getElem?_getD, h] at hf; cases hf
    · intro ho
      subst ho
      obtain ⟨v', l', h', j1, j2, _, j4, _, j6, j7⟩ := C65_cofactors hR (hh p (by simp)) hb ht dF
      rw [k1] at j1; cases j1
      rw [k2] at j2; cases j2
      exact ⟨⟨k4, j6, j7⟩, fun x hx => k6.eq j4 hx⟩
  | high =>
    obtain ⟨p, F, rfl, rfl, dF⟩ := shape1 hd (len_of (by hub1) e)
    obtain ⟨r, e1, rfl⟩ := one_of e; clear e; have e := e1; clear e1
    obtain ⟨hb, ht⟩ := high_sink hi e
    obtain ⟨v, l, h, L, H, k1, _, k2, k4, _, k6, k7, k8⟩ := C65_walk hR (hh p (by simp)) hb ht dF
    rw [k2] at e; cases e
    refine ⟨[H], ⟨F, H, v, rfl, rfl, rfl, k4, ?_, ?_⟩, k7, trivial⟩
    · intro x hx hf
      have hl : v < x.length := Nat.lt_of_lt_of_le k4 hx
      rw [k8 x hx, if_pos]
      rw [List.getD_eq_getElem?_getD, List.getElem?_eq_getElem hl] at hf
      rw [List.getElem?_eq_getElem hl]
      exact congrArg some hf
    · intro ho
      subst ho
      obtain ⟨v', l', h', j1, _, j2, _, j4, j6, j7⟩ := C65_cofactors hR (hh p (by simp)) hb ht dF
      rw [k1] at j1; cases j1
      rw [k2] at j2; cases j2
      exact ⟨⟨k4, j6, j7⟩, fun x hx => k7.eq j4 hx⟩
  | refBotsink =>
    obtain ⟨p, F, rfl, rfl, dF⟩ := shape1 hd (len_of (by hub1) e)
    obtain ⟨t, ht⟩ := hi.any (hh p (by simp))
    obtain ⟨q, e', _⟩ := findBddMgr_ok (cfg := cfg) hi ht
    obtain ⟨q', s1, e1, e2⟩ := bind_ok_inv e
    rw [e'] at e1; cases e1
    cases e2
    obtain ⟨Gs, h1, h2⟩ := gives_of (n' := a.mgr.nvars) (C66_sinks_constant hR).1
    exact ⟨Gs, ⟨F, rfl, rfl, h1⟩, h2⟩
  | refTopsink =>
    obtain ⟨p, F, rfl, rfl, dF⟩ := shape1 hd (len_of (by hub1) e)
    obtain ⟨t, ht⟩ := hi.any (hh p (by simp))
    obtain ⟨q, e', _⟩ := findBddMgr_ok (cfg := cfg) hi ht
    obtain ⟨q', s1, e1, e2⟩ := bind_ok_inv e
    rw [e'] at e1; cases e1
    cases e2
    obtain ⟨Gs, h1, h2⟩ := gives_of (n' := a.mgr.nvars) (C66_sinks_constant hR).2
    exact ⟨Gs, ⟨F, rfl, rfl, h1⟩, h2⟩
  | exportBdd c nr =>
    obtain ⟨rfl, rfl⟩ := shape0 hd (len_of (by hub0) e)
    obtain ⟨hw, hv, ho⟩ := hpre
    obtain ⟨d0, d1, he, hr⟩ := id hw
    obtain ⟨t, ht⟩ := hw.tree he
    obtain ⟨r, e1, rfl⟩ := one_of e; clear e; have e := e1; clear e1
    by_cases hb : d0 + 2 < d1
    · obtain ⟨_, hi', ⟨t0, t1, h0, h1, hb'⟩, hn⟩ := (exportBdd_ok hi hw he hb (fun h => ho (Use.ordered_iff.1 h)) hv).libN r s' e
      obtain rfl := h0.unique ht
      have dF : CDenotes cfg c nr (fun x => t0.eval (asg x)) := fun x hx => cEvaluate_ok he hr ht (hx.mem he hr ht)
      have dr : Denotes cfg s' r (fun x => t0.eval (asg x)) := (denotes_repr hi' h1).congr fun x _ => hb'.eval _
      obtain ⟨Gs, h3, h4⟩ := gives_of (n' := s'.nvars) dr
      exact ⟨Gs, ⟨_, rfl, hn, dF, h3⟩, h4⟩
    · exact (exportBdd_small he hb e).elim
  | importBdd c nr =>
    obtain ⟨rfl, rfl⟩ := shape0 hd (len_of (by hub0) e)
    obtain ⟨hw, hv, hp⟩ := hpre
    obtain ⟨r, e1, rfl⟩ := one_of e; clear e; have e := e1; clear e1
    obtain ⟨hi', d0, d1, t, t', he, ht, hr, heq, n1, n2, n3⟩ := mgrAddBdd_means (Use.orMode (ou_of hu hp)).iteRel hi hw hv e
    have hwr := hw.entry he
    have dF : CDenotes cfg c nr (fun x => t.eval (asg x)) := fun x hx => cEvaluate_ok he hwr ht (hx.mem he hwr ht)
    have dr : Denotes cfg s' r (fun x => t.eval (asg x)) := (denotes_repr hi' hr).congr fun x _ => heq _
    obtain ⟨Gs, h3, h4⟩ := gives_of (n' := s'.nvars) dr
    exact ⟨Gs, ⟨_, rfl, n1, n2, n3, dF, h3⟩, h4⟩

/-! ### Steps -/

theorem zip_append {R : Option Nat → Option BoolFn → Prop} {hs hs' : List (Option Nat)} {us us' : List (Option BoolFn)} (hl : hs.length = us.length)
    (h : ∀ (i : Nat) (o : Option Nat) (w : Option BoolFn), hs[i]? = some o → us[i]? = some w → R o w)
    (h' : ∀ (i : Nat) (o : Option Nat) (w : Option BoolFn), hs'[i]? = some o → us'[i]? = some w → R o w) :
    ∀ (i : Nat) (o : Option Nat) (w : Option BoolFn), (hs ++ hs')[i]? = some o → (us ++ us')[i]? = some w → R o w := by
  intro i o w e1 e2
  by_cases hi : i < hs.length
  · rw [List.getElem?_append_left hi] at e1
    rw [List.getElem?_append_left (hl ▸ hi)] at e2
    exact h i o w e1 e2
  · rw [List.getElem?_append_right (by omega)] at e1
    rw [List.getElem?_append_right (by omega), ← hl] at e2
    exact h' _ o w e1 e2

theorem zip_set {R : Option Nat → Option BoolFn → Prop} {hs : List (Option Nat)} {us : List (Option BoolFn)} {o0 : Option Nat} {w0 : Option BoolFn} (k : Nat)
    (h0 : R o0 w0) (h : ∀ (i : Nat) (o : Option Nat) (w : Option BoolFn), hs[i]? = some o → us[i]? = some w → R o w) :
    ∀ (i : Nat) (o : Option Nat) (w : Option BoolFn), (hs.set k o0)[i]? = some o → (us.set k w0)[i]? = some w → R o w := by
  intro i o w e1 e2
  rw [List.getElem?_set] at e1 e2
  by_cases hi : k = i
  · subst hi
    simp only [if_true] at e1 e2
    split at e1
    · split at e2
      · cases e1; cases e2; exact h0
      · cases e2
    · cases e1
  · simp only [hi, if_false] at e1 e2
    exact h i o w e1 e2

theorem zip_single {R : Option Nat → Option BoolFn → Prop} {o0 : Option Nat} {w0 : Option BoolFn} (h0 : R o0 w0) :
    ∀ (i : Nat) (o : Option Nat) (w : Option BoolFn), [o0][i]? = some o → [w0][i]? = some w → R o w := by
  intro i o w e1 e2
  cases i with
  | zero => cases e1; cases e2; exact h0
  | succ i => simp at e1

theorem DenotesAll.get : ∀ {ps : List Nat} {Fs : List BoolFn}, DenotesAll cfg s ps Fs → ∀ (i p : Nat) (F : BoolFn), ps[i]? = some p → Fs[i]? = some F → Denotes cfg s p F
  | _ :: _, _ :: _, h, 0, _, _, e1, e2 => by cases e1; cases e2; exact h.1
  | _ :: _, _ :: _, h, i + 1, q, u, e1, e2 => DenotesAll.get h.2 i q u (by simpa using e1) (by simpa using e2)
  | [], [], _, _, _, _, e1, _ => by simp at e1
  | [], _ :: _, h, _, _, _, _, _ => h.elim
  | _ :: _, [], h, _, _, _, _, _ => h.elim

variable {S : Store}

theorem Looks.get (h : Looks cfg a S) {i : Nat} {o : Option Nat} (e : a.hs[i]? = some o) : ∃ w, S.slots[i]? = some w ∧ SlotOk cfg a.mgr o w := by
  have : i < S.slots.length := by rw [← h.len]; exact (List.getElem?_eq_some_iff.1 e).1
  exact ⟨S.slots[i], List.getElem?_eq_getElem this, h.slot i o _ e (List.getElem?_eq_getElem this)⟩

theorem Looks.args (h : Looks cfg a S) : ∀ {is ps : List Nat}, a.args is = some ps → ∃ Fs, S.args is = some Fs ∧ DenotesAll cfg a.mgr ps Fs := by
  intro is
  induction is with
  | nil => intro ps e; simp [Api.args] at e; subst e; exact ⟨[], rfl, trivial⟩
  | cons i is ih =>
    intro ps e
    simp only [Api.args, List.mapM_cons] at e
    cases e1 : (a.hs[i]?).join with
    | none => rw [e1] at e; simp at e
    | some q =>
      rw [e1] at e
      cases e2 : List.mapM (fun i => (a.hs[i]?).join) is with
      | none => rw [e2] at e; simp at e
      | some qs =>
        rw [e2] at e
        simp at e
        subst e
        obtain ⟨ts, h1, h2⟩ := ih e2
        cases e3 : a.hs[i]? with
        | none => rw [e3] at e1; simp at e1
        | some o =>
          rw [e3] at e1
          simp at e1
          subst e1
          obtain ⟨w, w1, w2⟩ := h.get e3
          cases w with
          | none => exact w2.elim
          | some t =>
            refine ⟨t :: ts, ?_, w2, h2⟩
            unfold Store.args at h1 ⊢
            rw [List.mapM_cons, h1, w1]
            rfl

/-- A handle keeps its function. -/
theorem Denotes.persist (hg : Good cfg u a) (hg' : Good cfg u a') (hp : Persist a a') (hh : a.Holds p) (d : Denotes cfg a.mgr p F) : Denotes cfg a'.mgr p F := by
  obtain ⟨t, ht⟩ := hg.any hh
  have ht' := hp.repr ht (Or.inr ⟨_, hh, .refl _⟩)
  intro x hx
  rw [d.eq (denotes_repr hg ht) (hx.anti hp.nvars)]
  exact evals_repr hg' ht' hx

theorem Looks.persist (h : Looks cfg a S) (hg : Good cfg u a) (hg' : Good cfg u a') (hp : Persist a a') :
    ∀ (i : Nat) (o : Option Nat) (w : Option BoolFn), a.hs[i]? = some o → S.slots[i]? = some w → SlotOk cfg a'.mgr o w := by
  intro i o w h1 h2
  have := h.slot i o w h1 h2
  cases o <;> cases w
  · trivial
  · exact this
  · exact this
  · exact Denotes.persist hg hg' hp (List.mem_of_getElem? h1) this

/-- If every successful call means what `Mn` says, then every step of the library is a step of the store. -/
theorem step_looks {Mn : Nat → Fn → List BoolFn → Nat → List BoolFn → Prop} (hR : Reachable cfg u a)
    (hM : ∀ (f : Fn) {ps : List Nat} {Fs : List BoolFn}, (∀ p ∈ ps, a.Holds p) → DenotesAll cfg a.mgr ps Fs → f.Pre cfg u a.mgr ps → ∀ {rs : List Nat} {s' : Mgr}, f.run cfg ps a.mgr = .ok rs s' →
      ∃ Gs, Mn a.mgr.nvars f Fs s'.nvars Gs ∧ DenotesAll cfg s' rs Gs)
    (h : Looks cfg a S) {op : Op} (hl : Legal cfg u a op) (e : LBDD.step cfg op a = .ok () a') : ∃ S', Store.StepBy Mn S S' op ∧ Looks cfg a' S' := by
  have hg := hR.good
  obtain ⟨hg', hp⟩ := step_good hg hl e
  have hk := h.persist hg hg' hp
  cases op with
  | call f is =>
    simp only [LBDD.step] at e
    rw [M.get_bind_apply] at e
    cases e1 : a.args is with
    | none => rw [e1] at e; cases e
    | some ps =>
      obtain ⟨Fs, h1, h2⟩ := h.args e1
      rw [e1] at e
      obtain ⟨rs, a1, e2, e3⟩ := bind_ok_inv e
      obtain ⟨e4, e5⟩ := onMgr_ok e2
      obtain ⟨Gs, m1, m2⟩ := hM f (args_holds e1) h2 (hl ps e1) e4
      obtain ⟨x1, x2⟩ := pushHandles_same e3
      have hn : a'.mgr.nvars = a1.mgr.nvars := x1.2.2
      rw [h.nvars, ← hn] at m1
      refine ⟨⟨a'.mgr.nvars, S.slots ++ Gs.map some⟩, ⟨Fs, Gs, h1, m1, rfl⟩, rfl, ?_, ?_⟩
      · show a'.hs.length = _
        rw [x2, e5]; simp [h.len, m2.length]
      · show ∀ (i : Nat) (o : Option Nat) (w : Option BoolFn), a'.hs[i]? = some o → (S.slots ++ Gs.map some)[i]? = some w → _
        rw [x2, e5]
        refine zip_append h.len hk ?_
        intro i o w a b
        simp only [List.getElem?_map, Option.map_eq_some_iff] at a b
        obtain ⟨p, p1, rfl⟩ := a
        obtain ⟨G, t1, rfl⟩ := b
        have d := m2.get i p G p1 t1
        have hp' : a'.Holds p := by
          show some p ∈ a'.hs
          rw [x2]
          exact List.mem_append.2 (Or.inr (List.mem_map.2 ⟨p, List.mem_of_getElem? p1, rfl⟩))
        obtain ⟨t, ht⟩ := hg'.any hp'
        have hi1 : Inv cfg u.md a1.count a1.mgr := by
          obtain ⟨_, hi, _⟩ := Fn.run_lib hg f ps (hg.args e1) (hl ps e1) rs _ e4
          exact hi.congr_refs fun p => by unfold Api.count; rw [e5]
        intro x hx
        have hx1 : Covers a1.mgr x := hx.anti (Nat.le_of_eq hn.symm)
        rw [d.eq (denotes_repr hi1 (ht.ext x1.2.1)) hx1]
        exact evals_repr hg' ht hx
  | copy k =>
    simp only [LBDD.step] at e
    rw [M.get_bind_apply] at e
    cases e1 : a.hs[k]? with
    | none => rw [e1] at e; cases e
    | some o =>
      rw [e1] at e
      obtain ⟨_, a1, e2, e3⟩ := bind_ok_inv e
      obtain ⟨e4, e5⟩ := onMgr_ok e2
      cases e3
      have x := acquire_same e4
      obtain ⟨w, w1, w2⟩ := h.get e1
      refine ⟨⟨S.n, S.slots ++ [w]⟩, ⟨w, w1, rfl, rfl⟩, x.2.2.trans h.nvars, ?_, ?_⟩
      · show (a1.hs ++ [o]).length = _
        rw [e5]; simp [h.len]
      · show ∀ (i : Nat) (o' : Option Nat) (w' : Option BoolFn), (a1.hs ++ [o])[i]? = some o' → (S.slots ++ [w])[i]? = some w' → _
        rw [e5]
        exact zip_append h.len hk (zip_single (hk k o w e1 w1))
  | move k =>
    simp only [LBDD.step] at e
    rw [M.get_bind_apply] at e
    cases e1 : a.hs[k]? with
    | none => rw [e1] at e; cases e
    | some o =>
      rw [e1] at e
      cases e
      obtain ⟨w, w1, w2⟩ := h.get e1
      refine ⟨⟨S.n, S.slots.set k none ++ [w]⟩, ⟨w, w1, rfl, rfl⟩, h.nvars, by simp [h.len], ?_⟩
      exact zip_append (by simp [h.len]) (zip_set k (o0 := none) (w0 := none) trivial hk) (zip_single (hk k o w e1 w1))
  | assign k j =>
    simp only [LBDD.step] at e
    rw [M.get_bind_apply] at e
    cases e1 : a.hs[k]? with
    | none => rw [e1] at e; cases e
    | some oi =>
      cases e2 : a.hs[j]? with
      | none => rw [e1, e2] at e; cases e
      | some oj =>
        rw [e1, e2] at e
        obtain ⟨_, a1, f1, e⟩ := bind_ok_inv e
        obtain ⟨_, a2, f2, e⟩ := bind_ok_inv e
        obtain ⟨f3, f4⟩ := onMgr_ok f1
        obtain ⟨f5, f6⟩ := onMgr_ok f2
        cases e
        have x := (releaseNoAssert_same f3).trans (acquire_same f5)
        obtain ⟨w, w1, w2⟩ := h.get e2
        have hkl : k < S.slots.length := by rw [← h.len]; exact (List.getElem?_eq_some_iff.1 e1).1
        refine ⟨⟨S.n, S.slots.set k w⟩, ⟨w, hkl, w1, rfl, rfl⟩, x.2.2.trans h.nvars, ?_, ?_⟩
        · show (a2.hs.set k oj).length = _
          rw [f6, f4]; simp [h.len]
        · show ∀ (i : Nat) (o' : Option Nat) (w' : Option BoolFn), (a2.hs.set k oj)[i]? = some o' → (S.slots.set k w)[i]? = some w' → _
          rw [f6, f4]
          exact zip_set k (hk j oj w e2 w1) hk
  | drop k =>
    simp only [LBDD.step] at e
    rw [M.get_bind_apply] at e
    cases e1 : a.hs[k]? with
    | none => rw [e1] at e; cases e
    | some o =>
      rw [e1] at e
      obtain ⟨_, a1, f1, e⟩ := bind_ok_inv e
      obtain ⟨f3, f4⟩ := onMgr_ok f1
      cases e
      have x := release_same f3
      have hkl : k < S.slots.length := by rw [← h.len]; exact (List.getElem?_eq_some_iff.1 e1).1
      refine ⟨⟨S.n, S.slots.set k none⟩, ⟨hkl, rfl, rfl⟩, x.2.2.trans h.nvars, ?_, ?_⟩
      · show (a1.hs.set k none).length = _
        rw [f4]; simp [h.len]
      · show ∀ (i : Nat) (o' : Option Nat) (w : Option BoolFn), (a1.hs.set k none)[i]? = some o' → (S.slots.set k none)[i]? = some w → _
        rw [f4]
        exact zip_set k (o0 := none) (w0 := none) trivial hk
  | gc =>
    obtain ⟨s', e', g, r, f, _⟩ := gc_good hg hl
    rw [e'] at e
    cases e
    exact ⟨S, ⟨rfl, rfl⟩, r.frees.nvars.trans h.nvars, h.len, hk⟩

/-- Every step of the library is a step of the store. -/
theorem C81_step_partial (hu : u ≠ .mixed) (hR : Reachable cfg u a) (h : Looks cfg a S) {op : Op} (hl : Legal cfg u a op) (e : LBDD.step cfg op a = .ok () a') :
    ∃ S', Store.Step cfg (u = .ordered) S S' op ∧ Looks cfg a' S' :=
  step_looks (Mn := fun n f => f.Means cfg (u = .ordered) n) hR (fun f _ _ hh hd hp _ _ e => Fn.run_means f (fun h => absurd h hu) hR hh hd hp e) h hl e

theorem History.reachable {ops : List Op} (h : History cfg u ops a) : Reachable cfg u a := by
  induction h with
  | init => exact .init
  | step _ hl e ih => exact .step ih hl e

theorem Reachable.history (h : Reachable cfg u a) : ∃ ops, History cfg u ops a := by
  induction h with
  | init => exact ⟨[], .init⟩
  | step _ hl e ih => exact ih.imp' (fun ops => ops ++ [_]) fun _ h => .step h hl e

theorem looks_init : Looks cfg (Api.init cfg) Store.init := ⟨rfl, rfl, fun i o w h => by simp [Api.init] at h⟩

/-- **C81** -/
theorem C81_store_partial (hu : u ≠ .mixed) {ops : List Op} (h : History cfg u ops a) : ∃ S, Store.Runs cfg (u = .ordered) ops S ∧ Looks cfg a S := by
  induction h with
  | init => exact ⟨_, .init, looks_init⟩
  | step h hl e ih =>
    obtain ⟨S, h1, h2⟩ := ih
    obtain ⟨S', h3, h4⟩ := C81_step_partial hu h.reachable h2 hl e
    exact ⟨S', .step h1 h3, h4⟩

/-- In an ordered history, comparing handles decides equality of the functions of the store. -/
theorem C81_equal_partial (hR : Reachable cfg .ordered a) (h : Looks cfg a S) {i j : Nat} {p q : Nat} {F G : BoolFn} (hp : a.hs[i]? = some (some p)) (hq : a.hs[j]? = some (some q))
    (hF : S.slots[i]? = some (some F)) (hG : S.slots[j]? = some (some G)) : p = q ↔ SameFn S.n F G := by
  have dF : Denotes cfg a.mgr p F := h.slot i _ _ hp hF
  have dG : Denotes cfg a.mgr q G := h.slot j _ _ hq hG
  rw [C07_canonical_partial hR (List.mem_of_getElem? hp) (List.mem_of_getElem? hq)]
  have hc : ∀ x, Covers a.mgr x ↔ S.n ≤ x.length := fun x => by rw [← h.nvars]; rfl
  constructor
  · intro he x hx
    have h1 := he x ((hc x).2 hx)
    rw [show evaluate cfg a.mgr p x = _ from dF x ((hc x).2 hx), show evaluate cfg a.mgr q x = _ from dG x ((hc x).2 hx)] at h1
    cases h1' : F x <;> cases h2' : G x <;> rw [h1', h2'] at h1 <;> first | rfl | cases h1
  · intro he x hx
    rw [show evaluate cfg a.mgr p x = _ from dF x hx, show evaluate cfg a.mgr q x = _ from dG x hx, he x ((hc x).1 hx)]

/-! ### Concrete histories -/

theorem runHist_history : ∀ {ops ops0 : List Op} {a a' : Api}, History cfg u ops0 a → runHist cfg u ops a = some a' → History cfg u (ops0 ++ ops) a' := by
  intro ops
  induction ops with
  | nil => intro ops0 a a' h e; cases e; rwa [List.append_nil]
  | cons op ops ih =>
    intro ops0 a a' h e
    unfold runHist at e
    split at e
    · rename_i hl
      split at e
      · rename_i a1 e1
        rw [show ops0 ++ op :: ops = (ops0 ++ [op]) ++ ops by simp]
        exact ih (.step h (legalCheck_sound hl) e1) e
      · cases e
    · cases e

theorem stateAfter_history {ops : List Op} (h : (runHist cfg u ops (Api.init cfg)).isSome = true) : History cfg u ops (stateAfter cfg u ops) := by
  unfold stateAfter
  cases e : runHist cfg u ops (Api.init cfg) with
  | none => rw [e] at h; cases h
  | some a => exact runHist_history (ops0 := []) .init e

theorem Store.Runs.inv {ord : Prop} {ops : List Op} {op : Op} {S' : Store} (h : Store.Runs cfg ord (ops ++ [op]) S') :
    ∃ S, Store.Runs cfg ord ops S ∧ Store.Step cfg ord S S' op := by
  generalize e : ops ++ [op] = l at h
  cases h with
  | init => simp at e
  | @step ops1 op1 S1 _ h1 h2 =>
    obtain ⟨rfl, h⟩ := List.append_inj' e rfl
    cases h
    exact ⟨S1, h1, h2⟩

/-- A history with a garbage collection: `x0`, `x1`, `x0 ∧ x1`, its negation; then the last handle is released, so that its two nodes are freed. -/
def storeOps : List Op := [.call (.projection 0) [], .call (.projection 1) [], .call .and [0, 1], .call .negate [2], .drop 3, .gc]

def storeDemo (nd : Bool) : Api := stateAfter (envOf nd) .ordered storeOps

theorem storeDemo_some (nd : Bool) : (runHist (envOf nd) .ordered storeOps (Api.init (envOf nd))).isSome = true := by cases nd <;> decide +kernel

/-- The hypotheses of C81 hold for the history, and the store it leads to is the expected one. -/
theorem C81_concrete (nd : Bool) : History (envOf nd) .ordered storeOps (storeDemo nd) ∧
    ∀ S, Store.Runs (envOf nd) (Use.ordered = .ordered) storeOps S → S.n = 2 ∧
      ∃ F0 F1 F2, S.slots = [some F0, some F1, some F2, none] ∧ SameFn 2 F0 (fun x => x.getD 0 false) ∧ SameFn 2 F1 (fun x => x.getD 1 false) ∧
        SameFn 2 F2 (fun x => x.getD 0 false && x.getD 1 false) := by
  refine ⟨stateAfter_history (storeDemo_some nd), ?_⟩
  intro S h
  obtain ⟨S6, h, h6, h6'⟩ := Store.Runs.inv (ops := [.call (.projection 0) [], .call (.projection 1) [], .call .and [0, 1], .call .negate [2], .drop 3]) (op := .gc) h
  obtain ⟨S5, h, _, h5, h5'⟩ := Store.Runs.inv (ops := [.call (.projection 0) [], .call (.projection 1) [], .call .and [0, 1], .call .negate [2]]) (op := .drop 3) h
  obtain ⟨S4, h, Fs4, Gs4, a4, ⟨F4, e4, n4, G4, g4, m4⟩, h4⟩ := Store.Runs.inv (ops := [.call (.projection 0) [], .call (.projection 1) [], .call .and [0, 1]]) (op := .call .negate [2]) h
  obtain ⟨S3, h, Fs3, Gs3, a3, ⟨F3, H3, e3, n3, G3, g3, m3⟩, h3⟩ := Store.Runs.inv (ops := [.call (.projection 0) [], .call (.projection 1) []]) (op := .call .and [0, 1]) h
  obtain ⟨S2, h, Fs2, Gs2, a2, ⟨e2, n2, G2, g2, m2⟩, h2⟩ := Store.Runs.inv (ops := [.call (.projection 0) []]) (op := .call (.projection 1) []) h
  obtain ⟨S1, h, Fs1, Gs1, a1, ⟨e1, n1, G1, g1, m1⟩, h1⟩ := Store.Runs.inv (ops := []) (op := .call (.projection 0) []) h
  have hS : S1 = Store.init := by
    generalize hl : ([] : List Op) = l at h
    cases h with
    | init => rfl
    | step _ _ => simp at hl
  subst hS
  subst g1 g2 g3 g4 e3 e4
  have k1 : S2.slots = [some G1] := h1
  have k2 : S3.slots = [some G1, some G2] := by rw [h2, k1]; rfl
  have k3 : S4.slots = [some G1, some G2, some G3] := by rw [h3, k2]; rfl
  have k4 : S5.slots = [some G1, some G2, some G3, some G4] := by rw [h4, k3]; rfl
  have c1 : S2.n = 1 := n1
  have c2 : S3.n = 2 := by rw [n2, c1]; rfl
  have c3 : S4.n = 2 := n3.trans c2
  have c4 : S5.n = 2 := n4.trans c3
  have p3 : F3 = G1 ∧ H3 = G2 := by
    simp only [Store.args, k2, List.mapM_cons, List.mapM_nil] at a3
    simp at a3
    exact ⟨a3.1.symm, a3.2.symm⟩
  have p4 : F4 = G3 := by
    simp only [Store.args, k3, List.mapM_cons, List.mapM_nil] at a4
    simp at a4
    exact a4.symm
  obtain ⟨rfl, rfl⟩ := p3
  subst p4
  rw [c1] at m1
  rw [c2] at m2
  rw [c3] at m3
  rw [c4] at m4
  refine ⟨h6.trans (h5.trans c4), F3, H3, F4, by rw [h6', h5', k4]; rfl, fun x hx => m1 x (by omega), m2, fun x hx => ?_⟩
  rw [m3 x hx]
  show (F3 x && H3 x) = _
  rw [m1 x (by omega), m2 x hx]

/-- `xor_rec` and then `or_rec` of the same operands. -/
def badOps : List Op := [.call (.projection 0) [], .call (.projection 1) [], .call .xor [0, 1], .call .or [0, 1]]

def badStore (nd : Bool) : Api := stateAfter (envOf nd) .mixed badOps

theorem badStore_some (nd : Bool) : (runHist (envOf nd) .mixed badOps (Api.init (envOf nd))).isSome = true := by cases nd <;> decide +kernel
theorem badStore_handle (nd : Bool) : (badStore nd).hs[3]? = some (some 5) := by cases nd <;> decide +kernel
theorem badStore_eval (nd : Bool) : evalsB (envOf nd) (badStore nd).mgr 5 [true, true] false = true := by cases nd <;> decide +kernel
theorem badStore_nvars (nd : Bool) : (badStore nd).mgr.nvars = 2 := by cases nd <;> decide +kernel

/-- The full C81 is false: after `xor_rec(x0, x1)`, the handle returned by `or_rec(x0, x1)` is not the disjunction. -/
theorem C81_refuted (nd : Bool) : History (envOf nd) .mixed badOps (badStore nd) ∧
    ¬ ∃ S, Store.Runs (envOf nd) (Use.mixed = .ordered) badOps S ∧ Looks (envOf nd) (badStore nd) S := by
  refine ⟨stateAfter_history (badStore_some nd), ?_⟩
  rintro ⟨S, h, hl⟩
  obtain ⟨S4, h, Fs4, Gs4, a4, ⟨F4, H4, e4, n4, G4, g4, m4⟩, h4⟩ := Store.Runs.inv (ops := [.call (.projection 0) [], .call (.projection 1) [], .call .xor [0, 1]]) (op := .call .or [0, 1]) h
  obtain ⟨S3, h, Fs3, Gs3, a3, ⟨F3, H3, e3, n3, G3, g3, m3⟩, h3⟩ := Store.Runs.inv (ops := [.call (.projection 0) [], .call (.projection 1) []]) (op := .call .xor [0, 1]) h
  obtain ⟨S2, h, Fs2, Gs2, a2, ⟨e2, n2, G2, g2, m2⟩, h2⟩ := Store.Runs.inv (ops := [.call (.projection 0) []]) (op := .call (.projection 1) []) h
  obtain ⟨S1, h, Fs1, Gs1, a1, ⟨e1, n1, G1, g1, m1⟩, h1⟩ := Store.Runs.inv (ops := []) (op := .call (.projection 0) []) h
  have hS : S1 = Store.init := by
    generalize hl : ([] : List Op) = l at h
    cases h with
    | init => rfl
    | step _ _ => simp at hl
  subst hS
  subst g1 g2 g3 g4 e4
  have k1 : S2.slots = [some G1] := h1
  have k2 : S3.slots = [some G1, some G2] := by rw [h2, k1]; rfl
  have k3 : S4.slots = [some G1, some G2, some G3] := by rw [h3, k2]; rfl
  have k4 : S.slots = [some G1, some G2, some G3, some G4] := by rw [h4, k3]; rfl
  have c1 : S2.n = 1 := n1
  have c2 : S3.n = 2 := by rw [n2, c1]; rfl
  have c3 : S4.n = 2 := n3.trans c2
  have c4 : S.n = 2 := n4.trans c3
  have p4 : F4 = G1 ∧ H4 = G2 := by
    simp only [Store.args, k3, List.mapM_cons, List.mapM_nil] at a4
    simp at a4
    exact ⟨a4.1.symm, a4.2.symm⟩
  obtain ⟨rfl, rfl⟩ := p4
  rw [c1] at m1
  rw [c2] at m2
  rw [c4] at m4
  have d : Denotes (envOf nd) (badStore nd).mgr 5 G4 := hl.slot 3 (some 5) (some G4) (badStore_handle nd) (by rw [k4]; rfl)
  have hx : Covers (badStore nd).mgr [true, true] := by unfold Covers; rw [badStore_nvars]; decide
  have e5 := (evalsB_sound (badStore_eval nd)).symm.trans (show evaluate _ _ _ _ = _ from d _ hx)
  rw [m4 [true, true] (by decide)] at e5
  rw [show (fun x => F4 x || H4 x) [true, true] = true by show (F4 [true, true] || H4 [true, true]) = true; rw [m1 [true, true] (by decide)]; rfl] at e5
  cases e5
end
end LBDD
