import Verif.Proof.Build
import Verif.Proof.Query
/-! Renaming of variables (`rebase`). -/
namespace LBDD

/-- The tree with variables renamed by `f` (a node whose children become equal disappears). -/
def renTree (f : Nat → Nat) : Tree → Tree
  | .bot => .bot
  | .top => .top
  | .node v l h => mkTree (f v) (renTree f l) (renTree f h)

theorem renTree_eval (f : Nat → Nat) (t : Tree) (x : Assign) : (renTree f t).eval x = t.eval (fun v => x (f v)) := by
  induction t with
  | bot => rfl
  | top => rfl
  | node v l h ihl ihh => simp only [renTree, mkTree_eval, ihl, ihh, Tree.eval]

theorem renTree_mem {f : Nat → Nat} {w : Nat} : ∀ {t : Tree}, (renTree f t).Mem w → ∃ v, t.Mem v ∧ w = f v
  | .bot, h => h.elim
  | .top, h => h.elim
  | .node v l h, hm => by
    rcases mkTree_mem hm with e | e | e
    · exact ⟨v, Or.inl rfl, e⟩
    · obtain ⟨u, a, b⟩ := renTree_mem e; exact ⟨u, Or.inr (Or.inl a), b⟩
    · obtain ⟨u, a, b⟩ := renTree_mem e; exact ⟨u, Or.inr (Or.inr a), b⟩

theorem renTree_congr {f g : Nat → Nat} : ∀ {t : Tree}, (∀ v, t.Mem v → f v = g v) → renTree f t = renTree g t
  | .bot, _ => rfl
  | .top, _ => rfl
  | .node v l h, hm => by
    simp only [renTree]
    rw [hm v (Or.inl rfl), renTree_congr (fun u hu => hm u (Or.inr (Or.inl hu))), renTree_congr (fun u hu => hm u (Or.inr (Or.inr hu)))]

theorem lookup_cons_ne {p q r : Nat} {nm : List (Nat × Nat)} (h : q ≠ p) : ((p, r) :: nm).lookup q = nm.lookup q := by
  simp [List.lookup, beq_eq_false_iff_ne.2 h]

theorem lookup_cons_eq {p r : Nat} {nm : List (Nat × Nat)} : ((p, r) :: nm).lookup p = some r := by
  simp [List.lookup]

section
variable {cfg : Cfg} {md : Md} {refs : Nat → Nat} {s : Mgr}

/-- The node map sends nodes to their renamed copies. -/
def MapOk (f : Nat → Nat) (c : Nat → Cell) (nm : List (Nat × Nat)) : Prop :=
  ∀ q r, nm.lookup q = some r → ∃ t, Repr c q t ∧ Repr c r (renTree f t)

theorem MapOk.ext {f : Nat → Nat} {c c' : Nat → Cell} {nm : List (Nat × Nat)} (h : MapOk f c nm) (hx : CellsExt c c') : MapOk f c' nm := by
  intro q r e
  obtain ⟨t, a, b⟩ := h q r e
  exact ⟨t, a.ext hx, b.ext hx⟩

theorem rebaseLoop_ok {look : Nat → Option Nat} {f : Nat → Nat} {T : Tree} {c0 : Nat → Cell}
    (hmono : md.ordered → ∀ v w, T.Mem v → T.Mem w → v < w → f v < f w) (hT : md.ordered → ∀ q t, Repr c0 q t → t.Ordered) :
    ∀ (l : List Nat) (nm : List (Nat × Nat)) (S : Nat → Prop) (s : Mgr), Inv cfg md refs s → CellsExt c0 s.cells → PostOk c0 S l →
    (∀ q, q ∈ l → 2 ≤ q ∧ ∃ t, Repr c0 q t ∧ ∀ w, t.Mem w → T.Mem w) →
    (∀ v, T.Mem v → look v = some (f v) ∧ f v < s.nvars) →
    MapOk f s.cells nm → (∀ q, S q ∨ q < 2 → ∃ r, nm.lookup q = some r) →
    Spec cfg md refs (rebaseLoop cfg look l nm) s (fun nm' s' => MapOk f s'.cells nm' ∧
      (∀ q, q ∈ l ∨ S q ∨ q < 2 → ∃ r, nm'.lookup q = some r) ∧
      Adds s s' (fun u => ∃ q, q ∈ l ∧ ∃ t, Repr c0 q t ∧ (renTree f t).Sub u)) := by
  intro l
  induction l with
  | nil =>
    intro nm S s hi _ _ _ _ hm hS
    refine Spec.pure hi ⟨hm, fun q hq => hS q ?_, ?_⟩
    · rcases hq with h | h
      · cases h
      · exact h
    · intro u; simp
  | cons p l ih =>
    intro nm S s hi hx hpost hl hlook hm hS
    obtain ⟨p2, tp, hp, hpT⟩ := hl p (by simp)
    obtain ⟨tl, th, et, hlive, hidx, hlo, hhi⟩ := hp.inv p2
    obtain ⟨live', e1, e2, e3, _⟩ := hx p hlive
    have child : ∀ r, (r = (c0 p).lo ∨ r = (c0 p).hi) → ∃ r', nm.lookup r = some r' := by
      intro r hr
      by_cases r2 : 2 ≤ r
      · exact hS r (Or.inl (hpost.1 r hr r2))
      · exact hS r (Or.inr (by omega))
    obtain ⟨rl, el⟩ := child _ (Or.inl rfl)
    obtain ⟨rh, eh⟩ := child _ (Or.inr rfl)
    obtain ⟨tl', a1, a2⟩ := hm _ _ el
    obtain ⟨th', b1, b2⟩ := hm _ _ eh
    have := a1.fn (hlo.ext hx); subst this
    have := b1.fn (hhi.ext hx); subst this
    have hmemv : T.Mem (c0 p).index := hpT _ (by rw [et]; exact Or.inl rfl)
    obtain ⟨hlk, hlt⟩ := hlook _ hmemv
    unfold rebaseLoop
    refine Spec.get_bind ?_
    rw [e3, e1, e2, hlk, el, eh]
    refine Spec.bind (uniqueFind_spec hi hlt a2 b2 ?_) ?_
    · intro ho w hw
      have hord := hT ho _ _ hp
      rw [et] at hord hpT
      rcases hw with hw | hw
      · obtain ⟨v, hv, rfl⟩ := renTree_mem hw
        exact hmono ho _ _ hmemv (hpT _ (Or.inr (Or.inl hv))) (hord.1 v hv)
      · obtain ⟨v, hv, rfl⟩ := renTree_mem hw
        exact hmono ho _ _ hmemv (hpT _ (Or.inr (Or.inr hv))) (hord.2.1 v hv)
    rintro r s1 x1 hi1 ⟨hr, hnew⟩
    have hadd := hnew.adds hi hi1 x1.cells hr
    have hr' : Repr s1.cells r (renTree f tp) := by rw [et]; exact hr
    refine (ih ((p, r) :: nm) (fun q => S q ∨ q = p) s1 hi1 (hx.trans x1.cells) hpost.2 (fun q hq => hl q (by simp [hq]))
      (fun v hv => by rw [x1.nvars]; exact hlook v hv) ?_ ?_).mono ?_
    · intro q r' e
      by_cases hqp : q = p
      · subst hqp
        rw [lookup_cons_eq] at e
        cases e
        exact ⟨tp, hp.ext (hx.trans x1.cells), hr'⟩
      · rw [lookup_cons_ne hqp] at e
        exact (hm.ext x1.cells) q r' e
    · intro q hq
      by_cases hqp : q = p
      · subst hqp; exact ⟨r, lookup_cons_eq⟩
      · rw [lookup_cons_ne hqp]
        exact hS q (hq.imp (fun h => h.resolve_right hqp) id)
    · rintro nm' s2 _ _ ⟨h1, h2, h3⟩
      refine ⟨h1, ?_, ?_⟩
      · intro q hq
        refine h2 q ?_
        rcases hq with h | h | h
        · rcases List.mem_cons.1 h with h | h
          · exact Or.inr (Or.inl (Or.inr h))
          · exact Or.inl h
        · exact Or.inr (Or.inl (Or.inl h))
        · exact Or.inr (Or.inr h)
      · refine (hadd.trans h3).congr ?_
        intro u
        constructor
        · rintro (h | ⟨q, hq, t, ht, hu⟩)
          · exact ⟨p, by simp, tp, hp, by rw [et]; exact h⟩
          · exact ⟨q, by simp [hq], t, ht, hu⟩
        · rintro ⟨q, hq, t, ht, hu⟩
          rcases List.mem_cons.1 hq with rfl | hq
          · rw [ht.fn hp, et] at hu; exact Or.inl hu
          · exact Or.inr ⟨q, hq, t, ht, hu⟩

theorem Reaches.mem {c : Nat → Cell} {p q : Nat} (h : Reaches c p q) : ∀ {tp tq : Tree}, Repr c p tp → Repr c q tq → ∀ w, tq.Mem w → tp.Mem w := by
  induction h with
  | refl => intro tp tq h1 h2 w hw; rw [h1.fn h2]; exact hw
  | lo h2 _ _ ih =>
    intro tp tq h1 h3 w hw
    obtain ⟨_, _, rfl, _, _, h4, _⟩ := h1.inv h2
    exact Or.inr (Or.inl (ih h4 h3 w hw))
  | hi h2 _ _ ih =>
    intro tp tq h1 h3 w hw
    obtain ⟨_, _, rfl, _, _, _, h4⟩ := h1.inv h2
    exact Or.inr (Or.inr (ih h4 h3 w hw))

/-- The nodes a renaming may add: all nodes of renamed sub-BDDs. -/
def RenSubs (f : Nat → Nat) (t : Tree) (u : Tree) : Prop := ∃ w, t.Sub w ∧ (renTree f w).Sub u

theorem rebaseWith_ok (hi : Inv cfg md refs s) {p : Nat} {t : Tree} (hp : Repr s.cells p t) (hm : MarkOk cfg s p)
    {look : Nat → Option Nat} {f : Nat → Nat} (hmono : md.ordered → ∀ v w, t.Mem v → t.Mem w → v < w → f v < f w)
    (hlook : ∀ v, t.Mem v → look v = some (f v) ∧ f v < s.nvars) :
    Spec cfg md refs (rebaseWith cfg look p) s (fun r s' => Repr s'.cells r (renTree f t) ∧ Adds s s' (RenSubs f t)) := by
  unfold rebaseWith
  obtain ⟨l, e, hl, hpo, hlast⟩ := nodesPostorder_ok hi hp hm
  refine Spec.read_bind e ?_
  refine Spec.bind (rebaseLoop_ok (f := f) (T := t) (c0 := s.cells) hmono (fun ho => hi.ord ho) l _ _ s hi (.refl _) hpo ?_ hlook ?_ ?_) ?_
  · intro q hq
    obtain ⟨q2, hr⟩ := (hl.mem q).1 hq
    obtain ⟨tq, hq⟩ := hi.repr (hr.live_or hi hp)
    exact ⟨q2, tq, hq, hr.mem hp hq⟩
  · intro q r e
    simp only [List.lookup] at e
    split at e
    · rename_i h; rw [beq_iff_eq] at h; subst h; cases e; exact ⟨.bot, .bot, .bot⟩
    · split at e
      · rename_i h; rw [beq_iff_eq] at h; subst h; cases e; exact ⟨.top, .top, .top⟩
      · cases e
  · rintro q (h | h)
    · exact h.elim
    · have e : q = 0 ∨ q = 1 := by omega
      rcases e with rfl | rfl
      · exact ⟨0, rfl⟩
      · exact ⟨1, rfl⟩
  · rintro nm s1 x1 hi1 ⟨h1, h2, h3⟩
    obtain ⟨r, er⟩ := h2 p (by
      by_cases p2 : 2 ≤ p
      · exact Or.inl ((hl.mem p).2 ⟨p2, .refl _⟩)
      · exact Or.inr (Or.inr (by omega)))
    simp only [er]
    refine Spec.pure hi1 ?_
    obtain ⟨t', a, b⟩ := h1 p r er
    rw [a.fn (hp.ext x1.cells)] at b
    refine ⟨b, h3.congr ?_⟩
    intro u
    constructor
    · rintro ⟨q, hq, tq, hqt, hu⟩
      obtain ⟨q2, hr⟩ := (hl.mem q).1 hq
      exact ⟨tq, (hp.sub_iff tq).2 ⟨q, q2, hr, hqt⟩, hu⟩
    · rintro ⟨w, hw, hu⟩
      obtain ⟨q, q2, hr, hq⟩ := (hp.sub_iff w).1 hw
      exact ⟨q, (hl.mem q).2 ⟨q2, hr⟩, w, hq, hu⟩

theorem foldl_max_le (l : List Nat) : ∀ (a : Nat), a ≤ l.foldl max a ∧ ∀ b ∈ l, b ≤ l.foldl max a := by
  induction l with
  | nil => intro a; simp
  | cons c l ih =>
    intro a
    obtain ⟨h1, h2⟩ := ih (max a c)
    refine ⟨by simp only [List.foldl_cons]; omega, ?_⟩
    intro b hb
    simp only [List.foldl_cons]
    rcases List.mem_cons.1 hb with rfl | hb
    · omega
    · exact h2 b hb

theorem foldl_max_lt (l : List Nat) (n : Nat) : ∀ (a : Nat), a < n → (∀ b ∈ l, b < n) → l.foldl max a < n := by
  induction l with
  | nil => intro a h _; exact h
  | cons c l ih =>
    intro a h hl
    simp only [List.foldl_cons]
    exact ih _ (by have := hl c (by simp); omega) (fun b hb => hl b (by simp [hb]))

theorem lookup_mem {m : List (Nat × Nat)} {v w : Nat} (h : m.lookup v = some w) : (v, w) ∈ m := by
  induction m with
  | nil => cases h
  | cons a m ih =>
    obtain ⟨k, b⟩ := a
    by_cases e : v = k
    · subst e; rw [lookup_cons_eq] at h; cases h; simp
    · rw [lookup_cons_ne e] at h; simp [ih h]

/-- `rebase` with a hash map. -/
theorem rebaseMap_ok (hi : Inv cfg md refs s) {p : Nat} {t : Tree} (hp : Repr s.cells p t) (hm : SinkOk cfg ∨ 2 ≤ p)
    {m : List (Nat × Nat)} {f : Nat → Nat} (hf : ∀ v, t.Mem v → m.lookup v = some (f v)) (hmax : ∀ q ∈ m, q.2 < topsinkIndex)
    (hmono : md.ordered → ∀ v w, t.Mem v → t.Mem w → v < w → f v < f w) :
    SpecG cfg md refs (rebaseMap cfg p m) s (fun r s' => Repr s'.cells r (renTree f t) ∧
      s'.nvars = max s.nvars ((m.map (·.2)).foldl max 0 + 1) ∧ Adds s s' (RenSubs f t)) := by
  unfold rebaseMap
  have hlt : (m.map (·.2)).foldl max 0 < topsinkIndex := by
    refine foldl_max_lt _ _ _ (by unfold topsinkIndex; omega) ?_
    intro b hb
    obtain ⟨q, hq, rfl⟩ := List.mem_map.1 hb
    exact hmax q hq
  refine SpecG.bind (ensureVar_ok hi hlt) ?_
  rintro _ s1 x1 hi1 ⟨hn, hc⟩
  have hm1 : MarkOk cfg s1 p := by
    rcases hm with h | h
    · exact h.mark hi1 p
    · exact Or.inl h
  refine ((rebaseWith_ok hi1 (hp.ext x1.cells) hm1 hmono ?_).toG').mono ?_
  · intro v hv
    refine ⟨hf v hv, ?_⟩
    have := (foldl_max_le (m.map (·.2)) 0).2 (f v) (List.mem_map.2 ⟨(v, f v), lookup_mem (hf v hv), rfl⟩)
    omega
  · rintro r s2 _ _ ⟨⟨h1, h2⟩, h3⟩
    refine ⟨h1, h3.trans hn, ?_⟩
    intro u
    rw [h2 u]; simp only [LiveT, hc]

/-- `rebase` with a vector, on a non-constant BDD (or a release build). -/
theorem rebaseVec_ok (hi : Inv cfg md refs s) {p : Nat} {t : Tree} (hp : Repr s.cells p t) (hm : cfg.ndebug = true ∨ 2 ≤ p)
    {m : List Nat} {f : Nat → Nat} (hne : m ≠ []) (hf : ∀ v, t.Mem v → m[v]? = some (f v)) (hmax : ∀ q ∈ m, q < topsinkIndex)
    (hmono : md.ordered → ∀ v w, t.Mem v → t.Mem w → v < w → f v < f w) :
    SpecG cfg md refs (rebaseVec cfg p m) s (fun r s' => Repr s'.cells r (renTree f t) ∧
      s'.nvars = max s.nvars (m.foldl max 0 + 1) ∧ Adds s s' (RenSubs f t)) := by
  unfold rebaseVec
  have hback : assertBack cfg p m.length s = .ok () s := by
    unfold assertBack
    split
    · rfl
    · rename_i hnd
      have p2 : 2 ≤ p := hm.resolve_left hnd
      obtain ⟨l, e, h1, h2⟩ := variables_ok hi hp
      rw [M.bind_ok e]
      obtain ⟨tl, th, et, _⟩ := hp.inv p2
      have hmem : (s.cells p).index ∈ l := (h2 _).2 (by rw [et]; exact Or.inl rfl)
      match hg : l.getLast? with
      | none => rw [List.getLast?_eq_none_iff] at hg; rw [hg] at hmem; cases hmem
      | some v =>
        have hv : v ∈ l := List.mem_of_getLast? hg
        have := hf v ((h2 v).1 hv)
        obtain ⟨hlt, _⟩ := List.getElem?_eq_some_iff.1 this
        show M.assert _ _ s = _
        unfold M.assert
        rw [if_pos]
        have : v ≤ m.length := by omega
        simp [this]
  match m, hne with
  | a :: m', _ =>
    have hfold : m'.foldl max a = (a :: m').foldl max 0 := by simp
    refine SpecG.read_bind hback ?_
    show SpecG cfg md refs (ensureVar cfg (m'.foldl max a) >>= fun _ => rebaseWith cfg _ p) s _
    rw [hfold]
    have hlt : (a :: m').foldl max 0 < topsinkIndex := foldl_max_lt _ _ _ (by unfold topsinkIndex; omega) hmax
    refine SpecG.bind (ensureVar_ok hi hlt) ?_
    rintro _ s1 x1 hi1 ⟨hn, hc⟩
    have hm1 : MarkOk cfg s1 p := by
      rcases hm with h | h
      · exact Or.inr (Or.inl h)
      · exact Or.inl h
    refine ((rebaseWith_ok hi1 (hp.ext x1.cells) hm1 hmono ?_).toG').mono ?_
    · intro v hv
      refine ⟨hf v hv, ?_⟩
      have := (foldl_max_le (a :: m') 0).2 (f v) (List.mem_of_getElem? (hf v hv))
      omega
    · rintro r s2 _ _ ⟨⟨h1, h2⟩, h3⟩
      refine ⟨h1, h3.trans hn, ?_⟩
      intro u
      rw [h2 u]; simp only [LiveT, hc]
end
end LBDD
