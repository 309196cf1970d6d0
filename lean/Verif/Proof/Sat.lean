import Verif.Model.Base
/-! Reasoning rules for `M.Sat`. -/
namespace LBDD
namespace M
variable {σ α β : Type}

theorem Sat_bind {m : M σ α} {f : α → M σ β} {s : σ} {Q : β → σ → Prop} {E : σ → Prop} :
    Sat (m >>= f) s Q E ↔ Sat m s (fun a s' => Sat (f a) s' Q E) E := by
  show Sat (M.bind m f) s Q E ↔ _
  unfold Sat M.bind
  cases m s <;> simp

@[simp] theorem Sat_pure {a : α} {s : σ} {Q : α → σ → Prop} {E : σ → Prop} :
    Sat (Pure.pure a : M σ α) s Q E ↔ Q a s := Iff.rfl

@[simp] theorem Sat_pure' {a : α} {s : σ} {Q : α → σ → Prop} {E : σ → Prop} :
    Sat (M.pure a : M σ α) s Q E ↔ Q a s := Iff.rfl

@[simp] theorem Sat_get {s : σ} {Q : σ → σ → Prop} {E : σ → Prop} :
    Sat (M.get : M σ σ) s Q E ↔ Q s s := Iff.rfl

@[simp] theorem Sat_set {s t : σ} {Q : Unit → σ → Prop} {E : σ → Prop} :
    Sat (M.set t : M σ Unit) s Q E ↔ Q () t := Iff.rfl

@[simp] theorem Sat_modify {s : σ} {f : σ → σ} {Q : Unit → σ → Prop} {E : σ → Prop} :
    Sat (M.modify f : M σ Unit) s Q E ↔ Q () (f s) := Iff.rfl

@[simp] theorem Sat_throw {s : σ} {Q : α → σ → Prop} {E : σ → Prop} :
    Sat (M.throw : M σ α) s Q E ↔ E s := Iff.rfl

theorem Sat_assert {nd c : Bool} {s : σ} {Q : Unit → σ → Prop} {E : σ → Prop} (h : c = true) (hq : Q () s) :
    Sat (M.assert nd c : M σ Unit) s Q E := by
  simp [Sat, M.assert, h, hq]

theorem Sat_lift_ok {e : Except Stop α} {a : α} {s : σ} {Q : α → σ → Prop} {E : σ → Prop} (h : e = .ok a)
    (hq : Q a s) : Sat (M.lift e : M σ α) s Q E := by
  subst h; exact hq

theorem Sat.mono {m : M σ α} {s : σ} {Q Q' : α → σ → Prop} {E E' : σ → Prop} (h : Sat m s Q E)
    (hq : ∀ a s', Q a s' → Q' a s') (he : ∀ s', E s' → E' s') : Sat m s Q' E' := by
  unfold Sat at *
  cases hm : m s <;> simp_all

theorem Sat.and {m : M σ α} {s : σ} {Q Q' : α → σ → Prop} {E E' : σ → Prop} (h : Sat m s Q E)
    (h' : Sat m s Q' E') : Sat m s (fun a s => Q a s ∧ Q' a s) (fun s => E s ∧ E' s) := by
  unfold Sat at *
  cases hm : m s <;> simp_all

/-- Sequencing rule. -/
theorem Sat.bind {m : M σ α} {f : α → M σ β} {s : σ} {Q : α → σ → Prop} {R : β → σ → Prop} {E : σ → Prop}
    (h : Sat m s Q E) (hf : ∀ a s', Q a s' → Sat (f a) s' R E) : Sat (m >>= f) s R E :=
  Sat_bind.2 (h.mono hf (fun _ h => h))

theorem Sat_get_bind {f : σ → M σ β} {s : σ} {R : β → σ → Prop} {E : σ → Prop}
    (h : Sat (f s) s R E) : Sat ((M.get : M σ σ) >>= f) s R E := Sat_bind.2 h

theorem Sat_assert_bind {nd c : Bool} {f : Unit → M σ β} {s : σ} {R : β → σ → Prop} {E : σ → Prop}
    (hc : c = true) (h : Sat (f ()) s R E) : Sat ((M.assert nd c : M σ Unit) >>= f) s R E :=
  Sat_bind.2 (Sat_assert hc h)

theorem Sat_lift_bind {e : Except Stop α} {a : α} {f : α → M σ β} {s : σ} {R : β → σ → Prop} {E : σ → Prop}
    (he : e = .ok a) (h : Sat (f a) s R E) : Sat ((M.lift e : M σ α) >>= f) s R E :=
  Sat_bind.2 (Sat_lift_ok he h)

theorem Sat_pure_bind {a : α} {f : α → M σ β} {s : σ} {R : β → σ → Prop} {E : σ → Prop}
    (h : Sat (f a) s R E) : Sat ((Pure.pure a : M σ α) >>= f) s R E := Sat_bind.2 h

theorem Sat_set_bind {t : σ} {f : Unit → M σ β} {s : σ} {R : β → σ → Prop} {E : σ → Prop}
    (h : Sat (f ()) t R E) : Sat ((M.set t : M σ Unit) >>= f) s R E := Sat_bind.2 h

theorem Sat_modify_bind {g : σ → σ} {f : Unit → M σ β} {s : σ} {R : β → σ → Prop} {E : σ → Prop}
    (h : Sat (f ()) (g s) R E) : Sat ((M.modify g : M σ Unit) >>= f) s R E := Sat_bind.2 h

theorem get_bind_apply (f : σ → M σ β) (s : σ) : ((M.get : M σ σ) >>= f) s = f s s := rfl
theorem bind_ok {m : M σ α} {f : α → M σ β} {s s' : σ} {a : α} (h : m s = .ok a s') :
    (m >>= f) s = f a s' := by
  show M.bind m f s = _
  unfold M.bind
  rw [h]
theorem assert_bind_apply {nd c : Bool} {f : Unit → M σ β} {s : σ} (h : c = true) :
    ((M.assert nd c : M σ Unit) >>= f) s = f () s := bind_ok (by simp [M.assert, h])

/-- The outcome of a run that satisfies a specification. -/
theorem Sat.cases {m : M σ α} {s : σ} {Q : α → σ → Prop} {E : σ → Prop} (h : Sat m s Q E) :
    (∃ a s', m s = .ok a s' ∧ Q a s') ∨ (∃ s', m s = .throw s' ∧ E s') := by
  unfold Sat at h
  cases hm : m s with
  | ok a s' => exact Or.inl ⟨a, s', rfl, by simpa [hm] using h⟩
  | throw s' => exact Or.inr ⟨s', rfl, by simpa [hm] using h⟩
  | assertFail => simp [hm] at h
  | ub => simp [hm] at h
  | hang => simp [hm] at h

end M

theorem bind_ok_inv {σ α β : Type} {m : M σ α} {f : α → M σ β} {s : σ} {b : β} {s' : σ} (h : (m >>= f) s = .ok b s') :
    ∃ a s1, m s = .ok a s1 ∧ f a s1 = .ok b s' := by
  cases e : m s with
  | ok a s1 => exact ⟨a, s1, rfl, by rw [← M.bind_ok (f := f) e]; exact h⟩
  | throw s1 => rw [show (m >>= f) s = .throw s1 by show M.bind m f s = _; unfold M.bind; rw [e]] at h; cases h
  | assertFail => rw [show (m >>= f) s = .assertFail by show M.bind m f s = _; unfold M.bind; rw [e]] at h; cases h
  | ub => rw [show (m >>= f) s = .ub by show M.bind m f s = _; unfold M.bind; rw [e]] at h; cases h
  | hang => rw [show (m >>= f) s = .hang by show M.bind m f s = _; unfold M.bind; rw [e]] at h; cases h

@[simp] theorem upd_same {α : Type} (f : Nat → α) (k : Nat) (a : α) : upd f k a k = a := by simp [upd]
theorem upd_ne {α : Type} (f : Nat → α) {k i : Nat} (a : α) (h : i ≠ k) : upd f k a i = f i := by
  simp [upd, h]

end LBDD
