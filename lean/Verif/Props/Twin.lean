import Verif.Proof.Twin
import Verif.Props.Canon
import Verif.Props.Demo
/-!
# Determinism (C14)

Two processes that execute the same history see the same results, whatever the addresses of the nodes, the random hash keys and the order in
which the compiler evaluates arguments; the exception is `and_rec` with a node limit.
-/
namespace LBDD

/-- Both processes execute the history `ops` (listed from the last call to the first) successfully and end in `a` and `b`. -/
inductive SameHistory (u : Use) (cfg1 cfg2 : Cfg) : List Op → Api → Api → Prop
  | init : SameHistory u cfg1 cfg2 [] (Api.init cfg1) (Api.init cfg2)
  | step {ops : List Op} {op : Op} {a b a' b' : Api} : SameHistory u cfg1 cfg2 ops a b → Legal cfg1 u a op → Legal cfg2 u b op →
      step cfg1 op a = .ok () a' → step cfg2 op b = .ok () b' → SameHistory u cfg1 cfg2 (op :: ops) a' b'

/-- The call is `and_rec` with a node limit. -/
def Op.IsLimited (op : Op) : Prop := ∃ n is, op = .call (.andLimited n) is

theorem Op.not_limited {op : Op} (h : ¬ op.IsLimited) : op.limited = false := by
  cases op with
  | call f is => cases f <;> first | rfl | exact absurd ⟨_, _, rfl⟩ h
  | _ => rfl

variable {u : Use} {cfg1 cfg2 : Cfg} {a b : Api} {ops : List Op}

theorem SameHistory.left (h : SameHistory u cfg1 cfg2 ops a b) : Reachable cfg1 u a := by
  induction h with
  | init => exact .init
  | step _ h1 _ e1 _ ih => exact .step ih h1 e1

theorem SameHistory.right (h : SameHistory u cfg1 cfg2 ops a b) : Reachable cfg2 u b := by
  induction h with
  | init => exact .init
  | step _ _ h1 _ e1 ih => exact .step ih h1 e1

theorem Abs.init (K : Prop) (cfg : Cfg) : Abs K (Api.init cfg) 0 [] (fun _ => False) where
  nv := rfl
  len := rfl
  hs i o w h := by simp [Api.init] at h
  live _ u := by
    refine ⟨?_, fun h => h.elim⟩
    rintro ⟨p, p2, hp⟩
    have hi : Inv cfg Use.ordered.md (Api.init cfg).count (Mgr.init cfg) := (Reachable.init (u := .ordered)).good
    have := hi.live_of hp
    have h0 : (Mgr.init cfg).cells p = ⟨0, 0, 0, 0, 0, false⟩ := by
      show (if p = botId then _ else if p = topId then _ else _) = _
      rw [if_neg (by unfold botId; omega), if_neg (by unfold topId; omega)]
    rw [h0] at this
    cases this

theorem SameHistory.abs (hu : u ≠ .mixed) {K : Prop} (h : SameHistory u cfg1 cfg2 ops a b) (hl : ∀ op ∈ ops, ¬ op.IsLimited)
    (hK : K → u = .ordered ∨ .gc ∉ ops) : ∃ n us L, Abs K a n us L ∧ Abs K b n us L := by
  induction h with
  | init => exact ⟨0, [], _, .init _ _, .init _ _⟩
  | @step ops op a b a' b' h0 h1 h2 e1 e2 ih =>
    obtain ⟨n, us, L, x, y⟩ := ih (fun o ho => hl o (by simp [ho])) (fun k => (hK k).imp_right fun h h' => h (by simp [h']))
    obtain ⟨n', us', L', hh⟩ := step_abs hu op (Op.not_limited (hl op (by simp)))
      (fun k e => (hK k).resolve_right fun h => h (by simp [e])) n us L
    exact ⟨n', us', L', hh _ _ _ h0.left.good x h1 e1, hh _ _ _ h0.right.good y h2 e2⟩

/-- Lists of nodes of two managers with the same trees have the same length. -/
theorem length_eq_of_trees {md1 md2 : Md} {r1 r2 : Nat → Nat} {s1 s2 : Mgr} (i1 : Inv cfg1 md1 r1 s1) (i2 : Inv cfg2 md2 r2 s2) {l m : List Nat}
    (hl : l.Nodup) (hm : m.Nodup) (al : Anys s1.cells l) (am : Anys s2.cells m)
    (h : ∀ u, (∃ p, p ∈ l ∧ Repr s1.cells p u) ↔ ∃ q, q ∈ m ∧ Repr s2.cells q u) : l.length = m.length := by
  have key : ∀ {cfg : Cfg} {md : Md} {r : Nat → Nat} {s : Mgr} (hi : Inv cfg md r s) (l : List Nat), l.Nodup → Anys s.cells l →
      ∃ ts : List Tree, ts.length = l.length ∧ ts.Nodup ∧ ∀ u, u ∈ ts ↔ ∃ p, p ∈ l ∧ Repr s.cells p u := by
    intro cfg md r s hi l
    induction l with
    | nil => intro _ _; exact ⟨[], rfl, List.nodup_nil, fun u => by simp⟩
    | cons p l ih =>
      intro hn ha
      rw [List.nodup_cons] at hn
      obtain ⟨ts, h1, h2, h3⟩ := ih hn.2 (fun q hq => ha q (by simp [hq]))
      obtain ⟨t, ht⟩ := ha p (by simp)
      refine ⟨t :: ts, by simp [h1], ?_, ?_⟩
      · rw [List.nodup_cons]
        refine ⟨?_, h2⟩
        intro hm
        obtain ⟨q, q1, q2⟩ := (h3 t).1 hm
        rw [hi.repr_inj ht q2] at hn
        exact hn.1 q1
      · intro u
        rw [List.mem_cons, h3 u]
        constructor
        · rintro (rfl | ⟨q, q1, q2⟩)
          · exact ⟨p, by simp, ht⟩
          · exact ⟨q, by simp [q1], q2⟩
        · rintro ⟨q, q1, q2⟩
          rcases List.mem_cons.1 q1 with rfl | q1
          · exact Or.inl (q2.fn ht)
          · exact Or.inr ⟨q, q1, q2⟩
  obtain ⟨ts, a1, a2, a3⟩ := key i1 l hl al
  obtain ⟨us, b1, b2, b3⟩ := key i2 m hm am
  have : ts.Perm us := (List.perm_ext_iff_of_nodup a2 b2).2 (fun u => by rw [a3, b3, h])
  rw [← a1, ← b1, this.length_eq]

/-- What a user sees is the same in two processes whose states represent the same trees. -/
theorem Abs.same_results {K : Prop} {n : Nat} {us : List (Option Tree)} {L : Tree → Prop} (ga : Good cfg1 u a) (gb : Good cfg2 u b)
    (x : Abs K a n us L) (y : Abs K b n us L) :
    a.mgr.nvars = b.mgr.nvars ∧ a.hs.length = b.hs.length ∧
    (∀ i : Nat, a.hs[i]? = some none ↔ b.hs[i]? = some none) ∧
    (∀ i j p q p' q' : Nat, a.hs[i]? = some (some p) → a.hs[j]? = some (some q) → b.hs[i]? = some (some p') → b.hs[j]? = some (some q') →
      (p = q ↔ p' = q')) ∧
    (∀ i p q : Nat, a.hs[i]? = some (some p) → b.hs[i]? = some (some q) →
      (∀ F, Denotes cfg1 a.mgr p F ↔ Denotes cfg2 b.mgr q F) ∧
      ∀ k k', nrNodes cfg1 p a.mgr = .ok k a.mgr → nrNodes cfg2 q b.mgr = .ok k' b.mgr → k = k') ∧
    (K → a.mgr.pool.total = b.mgr.pool.total) := by
  have same : ∀ {i p q : Nat}, a.hs[i]? = some (some p) → b.hs[i]? = some (some q) → ∃ t, Repr a.mgr.cells p t ∧ Repr b.mgr.cells q t := by
    intro i p q e1 e2
    obtain ⟨w, w1, w2⟩ := x.get e1
    have w3 := y.hs i _ _ e2 w1
    cases w with
    | none => exact w2.elim
    | some t => exact ⟨t, w2, w3⟩
  refine ⟨x.nv.trans y.nv.symm, x.len.trans y.len.symm, ?_, ?_, ?_, ?_⟩
  · have key : ∀ {K : Prop} {a b : Api}, Abs K a n us L → Abs K b n us L → ∀ i : Nat, a.hs[i]? = some none → b.hs[i]? = some none := by
      intro K a b x y i e
      obtain ⟨w, w1, w2⟩ := x.get e
      cases w with
      | some t => exact w2.elim
      | none =>
        have : i < b.hs.length := by rw [y.len]; exact (List.getElem?_eq_some_iff.1 w1).1
        have w3 := y.hs i _ _ (List.getElem?_eq_getElem this) w1
        rw [List.getElem?_eq_getElem this]
        cases e : b.hs[i] with
        | none => rfl
        | some q => rw [e] at w3; exact w3.elim
    intro i
    exact ⟨key x y i, key y x i⟩
  · intro i j p q p' q' e1 e2 e3 e4
    obtain ⟨t, t1, t2⟩ := same e1 e3
    obtain ⟨u, u1, u2⟩ := same e2 e4
    constructor
    · rintro rfl
      rw [← t1.fn u1] at u2
      exact gb.repr_inj t2 u2
    · rintro rfl
      rw [← t2.fn u2] at u1
      exact ga.repr_inj t1 u1
  · intro i p q e1 e2
    obtain ⟨t, t1, t2⟩ := same e1 e2
    have hn : a.mgr.nvars = b.mgr.nvars := x.nv.trans y.nv.symm
    refine ⟨fun F => ?_, ?_⟩
    · constructor
      · intro hF z hz
        have hz' : Covers a.mgr z := by unfold Covers at *; omega
        rw [hF.eq (denotes_repr ga t1) hz']
        exact evals_repr gb t2 hz
      · intro hF z hz
        have hz' : Covers b.mgr z := by unfold Covers at *; omega
        rw [hF.eq (denotes_repr gb t2) hz']
        exact evals_repr ga t1 hz
    · intro k k' f1 f2
      have count : ∀ {cfg : Cfg} {a : Api} {p k : Nat}, Good cfg u a → Repr a.mgr.cells p t → nrNodes cfg p a.mgr = .ok k a.mgr →
          ∃ l, Lists a.mgr.cells p l ∧ l.length = k := by
        intro cfg a p k g ht e
        obtain ⟨l, s1, e1, e2, h, _⟩ := visit_unmark g false ht
        refine ⟨l, h, ?_⟩
        unfold nrNodes at e
        rw [M.get_bind_apply, M.bind_ok (getMark_ok a.mgr p)] at e
        obtain ⟨_, s2, e3, e⟩ := bind_ok_inv e
        obtain rfl : a.mgr = s2 := by
          unfold M.assert at e3
          split at e3
          · cases e3; rfl
          · cases e3
        rw [M.bind_ok e1, M.bind_ok e2] at e
        cases e; rfl
      obtain ⟨l, l1, l2⟩ := count ga t1 f1
      obtain ⟨m, m1, m2⟩ := count gb t2 f2
      rw [← l2, ← m2]
      refine length_eq_of_trees ga gb l1.nodup m1.nodup ?_ ?_ ?_
      · intro q hq; exact Any.reaches ⟨t, t1⟩ ((l1.mem q).1 hq).2
      · intro q hq; exact Any.reaches ⟨t, t2⟩ ((m1.mem q).1 hq).2
      · intro u
        have e1 := t1.sub_iff u
        have e2 := t2.sub_iff u
        constructor
        · rintro ⟨r, r1, r2⟩
          obtain ⟨r3, r4⟩ := (l1.mem r).1 r1
          obtain ⟨r', r5, r6, r7⟩ := e2.1 (e1.2 ⟨r, r3, r4, r2⟩)
          exact ⟨r', (m1.mem r').2 ⟨r5, r6⟩, r7⟩
        · rintro ⟨r, r1, r2⟩
          obtain ⟨r3, r4⟩ := (m1.mem r).1 r1
          obtain ⟨r', r5, r6, r7⟩ := e1.1 (e2.2 ⟨r, r3, r4, r2⟩)
          exact ⟨r', (l1.mem r').2 ⟨r5, r6⟩, r7⟩
  · intro hK
    obtain ⟨l, l1, l2, l3⟩ := ga.nr_nodes
    obtain ⟨m, m1, m2, m3⟩ := gb.nr_nodes
    rw [l3, m3, length_eq_of_trees ga gb l1 m1 (fun p hp => ga.repr ((l2 p).1 hp).2) (fun p hp => gb.repr ((m2 p).1 hp).2) ?_]
    intro u
    have e1 := x.live hK u
    have e2 := y.live hK u
    constructor
    · rintro ⟨p, p1, p2⟩
      obtain ⟨q, q1, q2⟩ := e2.2 (e1.1 ⟨p, ((l2 p).1 p1).1, p2⟩)
      exact ⟨q, (m2 q).2 ⟨q1, gb.live_of q2⟩, q2⟩
    · rintro ⟨p, p1, p2⟩
      obtain ⟨q, q1, q2⟩ := e1.2 (e2.1 ⟨p, ((m2 p).1 p1).1, p2⟩)
      exact ⟨q, (l2 q).2 ⟨q1, ga.live_of q2⟩, q2⟩

/-- C14 for histories that do not mix `or_rec` and `xor_rec` and do not use `and_rec` with a node limit: two processes that execute the same history, whatever
their addresses, random keys and evaluation orders, end with the same number of variables, the same handles (in number, null or not, equal or not), handles with the
same functions and the same node counts, and the same total number of nodes (the last, in histories that do not respect the variable order, only without
garbage collections). -/
theorem C14_same_results_partial (hu : u ≠ .mixed) (h : SameHistory u cfg1 cfg2 ops a b) (hl : ∀ op ∈ ops, ¬ op.IsLimited) :
    a.mgr.nvars = b.mgr.nvars ∧ a.hs.length = b.hs.length ∧
    (∀ i : Nat, a.hs[i]? = some none ↔ b.hs[i]? = some none) ∧
    (∀ i j p q p' q' : Nat, a.hs[i]? = some (some p) → a.hs[j]? = some (some q) → b.hs[i]? = some (some p') → b.hs[j]? = some (some q') →
      (p = q ↔ p' = q')) ∧
    (∀ i p q : Nat, a.hs[i]? = some (some p) → b.hs[i]? = some (some q) →
      (∀ F, Denotes cfg1 a.mgr p F ↔ Denotes cfg2 b.mgr q F) ∧
      ∀ k k', nrNodes cfg1 p a.mgr = .ok k a.mgr → nrNodes cfg2 q b.mgr = .ok k' b.mgr → k = k') ∧
    (u = .ordered ∨ .gc ∉ ops → a.mgr.pool.total = b.mgr.pool.total) := by
  obtain ⟨n, us, L, x, y⟩ := h.abs (K := u = .ordered ∨ .gc ∉ ops) hu hl id
  exact x.same_results h.left.good h.right.good y

/-! ### a concrete case, and the exception -/

/-- Run the same history in two environments. -/
def runBoth (u : Use) (cfg1 cfg2 : Cfg) : List Op → Api × Api → Option (Api × Api)
  | [], ab => some ab
  | op :: ops, (a, b) =>
    if legalCheck u a op && legalCheck u b op then
      match step cfg1 op a, step cfg2 op b with
      | .ok _ a', .ok _ b' => runBoth u cfg1 cfg2 ops (a', b')
      | _, _ => none
    else none

theorem runBoth_same : ∀ (ops done : List Op) (a b a' b' : Api), SameHistory u cfg1 cfg2 done a b →
    runBoth u cfg1 cfg2 ops (a, b) = some (a', b') → SameHistory u cfg1 cfg2 (ops.reverse ++ done) a' b' := by
  intro ops
  induction ops with
  | nil => intro done a b a' b' h e; cases e; exact h
  | cons op ops ih =>
    intro done a b a' b' h e
    unfold runBoth at e
    split at e
    · rename_i hc
      rw [Bool.and_eq_true] at hc
      split at e
      · rename_i _ a1 _ b1 e1 e2
        have := ih (op :: done) a1 b1 a' b' (.step h (legalCheck_sound hc.1) (legalCheck_sound hc.2) e1 e2) e
        simpa using this
      · cases e
    · cases e

/-- Another environment: other addresses, all random keys zero (so that everything collides), other evaluation order, release build. -/
def otherEnv : Cfg where
  ndebug := true
  addr p := 64 * (p + 7)
  addr_inj := by intro p q h; omega
  addr_big := by intro p; omega
  rng _ := 0
  rtl := true
  sinkHash _ := 0
  sinkMark _ := false

/-- Final states of the demo history in both environments. -/
def twinDemo : Option (Api × Api) := runBoth .ordered (envOf false) otherEnv demoOps (Api.init (envOf false), Api.init otherEnv)

theorem twinDemo_some : ∃ ab, twinDemo = some ab := by
  have : twinDemo.isSome = true := by decide +kernel
  exact Option.isSome_iff_exists.1 this

/-- The hypotheses of C14 are met: the demo history runs in both environments. -/
example : ∃ a b, SameHistory .ordered (envOf false) otherEnv demoOps.reverse a b ∧ (∀ op ∈ demoOps.reverse, ¬ op.IsLimited) ∧ a.hs.length = 7 := by
  obtain ⟨⟨a, b⟩, e⟩ := twinDemo_some
  have h : SameHistory .ordered (envOf false) otherEnv demoOps.reverse a b := by simpa using runBoth_same _ _ _ _ a b .init e
  refine ⟨a, b, h, ?_, ?_⟩
  · rintro op ho ⟨n, is, rfl⟩
    simp [demoOps] at ho
  · have : (twinDemo.map fun ab => ab.1.hs.length) = some 7 := by decide +kernel
    rw [e] at this
    simpa using this

/-- x0, x1, x2, x0∧x1, x0∧x2, and x0∧x1 again with a limit of one node. -/
def limitedOps : List Op :=
  [.call (.projection 0) [], .call (.projection 1) [], .call (.projection 2) [], .call .and [0, 1], .call .and [0, 2],
   .call (.andLimited 1) [0, 1]]

/-- An environment whose random keys put x0∧x1 and x0∧x2 into different slots of the memo cache. -/
def spreadEnv : Cfg := { envOf false with rng := fun i => (1664525 * (i + 3) + 1013904223 + 23757 * i) % 4194304 }

/-- Final states of that history in both environments. -/
def limitedTwin : Option (Api × Api) := runBoth .ordered spreadEnv otherEnv limitedOps (Api.init spreadEnv, Api.init otherEnv)

/-- C14 fails for `and_rec` with a node limit: whether it returns a BDD or gives up depends on the hash keys, because the result of an earlier call that is still
in the memo cache is counted with all its nodes, and a new result only with the nodes of its cofactors. -/
theorem C14_refuted_limited : ∃ (cfg1 cfg2 : Cfg) (ops : List Op) (a b : Api), SameHistory .ordered cfg1 cfg2 ops a b ∧ a.hs.length ≠ b.hs.length := by
  have h : (limitedTwin.map fun ab => (ab.1.hs.length, ab.2.hs.length)) = some (5, 6) := by decide +kernel
  cases e : limitedTwin with
  | none => rw [e] at h; cases h
  | some ab =>
    rw [e] at h
    simp only [Option.map_some, Option.some.injEq, Prod.mk.injEq] at h
    refine ⟨_, _, _, ab.1, ab.2, runBoth_same _ _ _ _ _ _ .init e, ?_⟩
    omega

/-- x0, x1, x2, x0 or x1, x0∧x2, x0 xor x1. -/
def mixedTwinOps : List Op :=
  [.call (.projection 0) [], .call (.projection 1) [], .call (.projection 2) [], .call .or [0, 1], .call .and [0, 2], .call .xor [0, 1]]

/-- Final states of that history in both environments. -/
def mixedTwin : Option (Api × Api) := runBoth .mixed spreadEnv otherEnv mixedTwinOps (Api.init spreadEnv, Api.init otherEnv)

/-- C14 fails for histories that mix `or_rec` and `xor_rec`: whether `xor_rec` finds the memo entry of `or_rec` (and returns the disjunction) depends on the hash keys.
In one environment the handles of "x0 or x1" and "x0 xor x1" are equal, in the other they are not. -/
theorem C14_refuted_mixed : ∃ (cfg1 cfg2 : Cfg) (ops : List Op) (a b : Api) (p p' q' : Nat), SameHistory .mixed cfg1 cfg2 ops a b ∧
    a.hs[3]? = some (some p) ∧ a.hs[5]? = some (some p) ∧ b.hs[3]? = some (some p') ∧ b.hs[5]? = some (some q') ∧ p' ≠ q' := by
  have h : (mixedTwin.map fun ab => ((ab.1.hs[3]?, ab.1.hs[5]?), (ab.2.hs[3]?, ab.2.hs[5]?))) =
      some ((some (some 5), some (some 5)), (some (some 5), some (some 8))) := by decide +kernel
  cases e : mixedTwin with
  | none => rw [e] at h; cases h
  | some ab =>
    rw [e] at h
    simp only [Option.map_some, Option.some.injEq, Prod.mk.injEq] at h
    exact ⟨_, _, _, ab.1, ab.2, 5, 5, 8, runBoth_same _ _ _ _ _ _ .init e, h.1.1, h.1.2, h.2.1, h.2.2, by decide⟩

/-- x0 (node 2), then the node with variable 0, low child x0 and high child true, both dropped, then a collection. -/
def gcTwinOps : List Op := [.call (.projection 0) [], .call .topsink [], .call (.uniqueFind 0) [0, 1], .drop 0, .drop 2, .gc]

/-- Two environments that differ in the random keys of the nodes. -/
def keyEnv (k : Nat) : Cfg := { envOf false with rng := fun i => (1664525 * i * k + 1013904223 + k) % 4194304 }

/-- Final states of that history in both environments. -/
def gcTwin : Option (Api × Api) := runBoth .unordered (keyEnv 0) (keyEnv 1) gcTwinOps (Api.init (keyEnv 0), Api.init (keyEnv 1))

/-- The total number of nodes in `C14_same_results_partial` needs its last hypothesis: in a history that does not respect the variable order, how much garbage a
collection frees depends on the hash keys. A node with a child of the same variable is freed; whether the child goes too depends on which of them the pass
over the unique table meets first. -/
theorem C14_refuted_gc : ∃ (cfg1 cfg2 : Cfg) (ops : List Op) (a b : Api), SameHistory .unordered cfg1 cfg2 ops a b ∧ (∀ op ∈ ops, ¬ op.IsLimited) ∧
    a.mgr.pool.total ≠ b.mgr.pool.total := by
  have h : (gcTwin.map fun ab => (ab.1.mgr.pool.total, ab.2.mgr.pool.total)) = some (2, 3) := by decide +kernel
  cases e : gcTwin with
  | none => rw [e] at h; cases h
  | some ab =>
    rw [e] at h
    simp only [Option.map_some, Option.some.injEq, Prod.mk.injEq] at h
    refine ⟨_, _, _, ab.1, ab.2, runBoth_same _ _ _ _ _ _ .init e, ?_, ?_⟩
    · intro op ho
      have ho : op ∈ gcTwinOps := by simpa using ho
      simp only [gcTwinOps, List.mem_cons, List.not_mem_nil, or_false] at ho
      rcases ho with rfl | rfl | rfl | rfl | rfl | rfl <;> (rintro ⟨_, _, h⟩; cases h)
    · omega

/-- x0, x1, x0 xor x1 (an unordered BDD), its negation, a second exclusive or. -/
def parityTwinOps : List Op :=
  [.call (.projection 0) [], .call (.projection 1) [], .call (.projection 2) [], .call .xor [0, 1], .call .negate [3], .call .xor [4, 2], .call .and [5, 0]]

def parityTwin : Option (Api × Api) := runBoth .parity spreadEnv otherEnv parityTwinOps (Api.init spreadEnv, Api.init otherEnv)

/-- The hypotheses of C14 are met by a history with exclusive ors. -/
example : ∃ a b, SameHistory .parity spreadEnv otherEnv parityTwinOps.reverse a b ∧ (∀ op ∈ parityTwinOps.reverse, ¬ op.IsLimited) ∧ a.hs.length = 7 := by
  have h : (parityTwin.map fun ab => ab.1.hs.length) = some 7 := by decide +kernel
  cases e : parityTwin with
  | none => rw [e] at h; cases h
  | some ab =>
    rw [e] at h
    refine ⟨ab.1, ab.2, by simpa using runBoth_same _ _ _ _ ab.1 ab.2 .init e, ?_, by simpa using h⟩
    rintro op ho ⟨n, is, rfl⟩
    simp [parityTwinOps] at ho

end LBDD
