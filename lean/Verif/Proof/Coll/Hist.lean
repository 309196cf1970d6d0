import Verif.Spec.CollApi
import Verif.Proof.Hist
import Verif.Proof.Coll.Remove
import Verif.Proof.Coll.Rebase
import Verif.Proof.Coll.OrVar
/-! Every reachable collection satisfies the invariant. -/
namespace LBDD

variable {cfg : Cfg} {c c' : Coll}

theorem AndRun.inv {st : List Instr} {root : Nat} {ts : List Tree} {run : Cfg → Nat → Res Coll (Option Nat)} (hc : CInv c) (ho : AndOut st root ts)
    (h : AndRun c st run) {limit : Nat} {o : Option Nat} (e : run cfg limit = .ok o c') :
    CInv c' ∧ ((o = none ∧ c' = c) ∨ o = some c.nrBdds ∧ c' = finish c st) := by
  rw [h cfg limit] at e
  split at e
  · cases e
  · split at e
    · split at e
      · cases e
      · cases e; exact ⟨finish_inv hc ho.sok, Or.inr ⟨rfl, rfl⟩⟩
    · cases e; exact ⟨hc, Or.inl ⟨rfl, rfl⟩⟩

theorem bddAndRange_many {l : List Nat} {limit : Nat} (h : 49 < l.length) : bddAndRange cfg l limit c = .throw c := by
  match l, h with
  | a :: b :: d :: l, h =>
    show (if (a :: b :: d :: l).length ≤ 49 then bddAndN cfg (a :: b :: d :: l) limit else M.throw) c = _
    rw [if_neg (by omega)]; rfl
  | [_, _], h => simp at h
  | [_], h => simp at h
  | [], h => simp at h

theorem COp.run_inv (hc : CInv c) {op : COp} (hl : op.Legal cfg c) (e : op.run cfg c = .ok () c') : CInv c' := by
  cases op with
  | and i j limit =>
    obtain ⟨o, c1, e1, e2⟩ := bind_ok_inv e
    cases e2
    obtain ⟨ds, ts, ho⟩ := hc.operands (l := [i, j]) (by intro k hk; simp at hk; rcases hk with rfl | rfl; exact hl.1; exact hl.2)
    obtain ⟨st, root, h1, h2⟩ := bddAnd_run hc hl.1 hl.2 ho
    exact (h2.inv hc h1 e1).1
  | andRange l limit =>
    obtain ⟨o, c1, e1, e2⟩ := bind_ok_inv e
    cases e2
    by_cases h2 : 2 ≤ l.length
    · by_cases h49 : l.length ≤ 49
      · obtain ⟨ds, ts, ho⟩ := hc.operands (l := l) hl
        obtain ⟨st, root, h1, h2⟩ := bddAndRange_run hc hl h2 h49 ho
        exact (h2.inv hc h1 e1).1
      · rw [bddAndRange_many (by omega)] at e1; cases e1
    · match l, e1 with
      | [], e1 => cases e1
      | [a], e1 => cases e1; exact hc
      | _ :: _ :: _, _ => simp at h2
  | rebaseVec nr m =>
    obtain ⟨c1, e1, h⟩ := cRebase_ok (cfg := cfg) hc hl.1 hl.2
    rw [show COp.run cfg (.rebaseVec nr m) c = cRebase cfg nr (fun v => m[v]?) c from rfl, e1] at e
    cases e
    exact h.inv
  | rebaseMap nr m =>
    obtain ⟨c1, e1, h⟩ := cRebase_ok (cfg := cfg) hc hl.1 hl.2
    rw [show COp.run cfg (.rebaseMap nr m) c = cRebase cfg nr (fun v => m.lookup v) c from rfl, e1] at e
    cases e
    exact h.inv
  | remove l =>
    obtain ⟨h1, h2, h3⟩ := hl
    rw [show COp.run cfg (.remove l) c = cRemove cfg l c from rfl] at e
    by_cases hne : l = []
    · subst hne
      unfold cRemove at e
      rw [M.get_bind_apply] at e
      obtain ⟨_, s1, e1, e⟩ := bind_ok_inv e
      obtain ⟨_, s2, e2, e⟩ := bind_ok_inv e
      obtain ⟨_, s3, e3, e⟩ := bind_ok_inv e
      have key : ∀ {s s' : Coll} {b : Bool} {x : Unit}, M.assert cfg.ndebug b s = .ok x s' → s' = s := by
        intro s s' b x h
        unfold M.assert at h
        split at h
        · cases h; rfl
        · cases h
      have := key e1; subst this
      have := key e2; subst this
      have := key e3; subst this
      cases e
      exact hc
    · obtain ⟨k, hk⟩ : ∃ k, l.getLast? = some k := ⟨_, List.getLast?_eq_some_getLast hne⟩
      have hkm := List.mem_of_getLast? hk
      by_cases hlast : k = c.nrBdds - 1
      · subst hlast
        obtain ⟨c1, e1, h, _⟩ := cRemove_ok (cfg := cfg) hc h1 hk h2 h3
        rw [e1] at e; cases e; exact h
      · have : ∀ i ∈ l, i + 1 < c.nrBdds := by
          intro i hi
          have : i ≤ k := by
            have hle : l.Pairwise (· ≤ ·) := h1.imp (fun h => Nat.le_of_lt h)
            obtain ⟨l', rfl⟩ : ∃ l', l = l' ++ [k] := List.getLast?_eq_some_iff.1 hk
            rcases List.mem_append.1 hi with hi | hi
            · exact (List.pairwise_append.1 hle).2.2 i hi k (by simp)
            · simp at hi; omega
          have := h2 k hkm
          omega
        rcases cRemove_bad (cfg := cfg) hc h1 hne this with h | h
        · rw [h] at e; cases e
        · rw [h] at e; cases e

  | orVar i pos neg =>
    obtain ⟨o, c1, e1, e2⟩ := bind_ok_inv e
    cases e2
    obtain ⟨d0, d1, he, hw⟩ := hc.wf i hl.1
    obtain ⟨t, et, a1, a2, a3, a4, a5, a6, e3⟩ := bddOrVar_ok (cfg := cfg) hc he hl.2
    rw [e3] at e1
    cases e1
    exact append_inv hc (or_wf he hw hl.2 a2 a3 a4 a5)

theorem CReachable.inv (h : CReachable cfg c) : CInv c := by
  induction h with
  | init => exact CInv.init
  | @add env c c' u a p nr s' _ _ hR hp h2 e ih =>
    obtain ⟨t, ht⟩ := hR.good.any hp
    obtain ⟨L, hL, e1⟩ := addBdd_ok (cfg := env) hR.good ih ht h2
    rw [e1] at e
    cases e
    exact append_inv ih (enc_wf hR.good ht hL)
  | step _ _ hl e ih => exact COp.run_inv ih hl e

/-- Only the build matters. -/
theorem CReachable.congr {env : Cfg} (h : CReachable cfg c) (e : cfg.ndebug = env.ndebug) : CReachable env c := by
  induction h with
  | init => exact .init
  | add _ h1 h2 h3 h4 h5 ih => exact .add ih (h1.trans e) h2 h3 h4 h5
  | step _ h1 h2 h3 ih => exact .step ih (h1.trans e) h2 h3

end LBDD
