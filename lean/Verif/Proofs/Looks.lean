import Verif.Proofs.ObjectsStep

/-! Calls that only look do not change the numbered gate objects. -/

namespace Stoq

open Matrix

theorem ORel.seq_eq {c : Client} {x : Objects} {R : ℕ → ℕ → Prop} (h : ORel c x R) (i : ℕ) :
    c.seq i = x.seqs[i]?.map ObjSeq.view := by
  unfold Client.seq
  rcases forall₂_getElem? h.seqs i with ⟨h3, h4⟩ | ⟨r, v, h3, h4, o, ho, hv⟩
  · rw [h3, h4]; rfl
  · rw [h3, h4]
    exact view_eq_some.mpr ⟨o, ho, hv.view.symm⟩

theorem ORel.entry_eq {c : Client} {x : Objects} {R : ℕ → ℕ → Prop} (h : ORel c x R) (i : ℕ) :
    c.entry i = x.entries[i]?.map Prod.snd := by
  unfold Client.entry
  rcases forall₂_getElem? h.ents i with ⟨h3, h4⟩ | ⟨r, e, h3, h4, -, y, hy, hye⟩
  · rw [h3, h4]; rfl
  · rw [h3, h4]
    simp only [Option.bind_some, hy, Option.map_some, hye]

theorem Objects.step_looks (x : Objects) {op : Op} (h : op.looks = true) : (x.step op).2 = x := by
  cases op <;> simp only [Op.looks, Bool.false_eq_true] at h
  all_goals simp only [Objects.step, Objects.with_]
  all_goals split
  all_goals first | rfl | skip
  split <;> rfl

theorem Objects.step_acts (x : Objects) {op : Op} (h : op.looks = false) (n : ℕ) (M : Matrix (Fin (2 ^ n)) (Fin (2 ^ n)) ℂ) :
    (x.step op).1 ≠ .ok (.op n M) := by
  cases op <;> simp only [Op.looks, Bool.true_eq_false] at h
  all_goals simp only [Objects.step, Objects.with_, Objects.change]
  all_goals repeat' split
  all_goals simp

theorem SameResult.eq {a b : Except PyErr Client.Obs} {o : Except PyErr Plain.Obs} (h : SameResult a o) (h' : SameResult b o)
    (ho : ∀ n M, o ≠ .ok (.op n M)) : a = b := by
  rcases a with e | a <;> rcases b with e' | b <;> rcases o with e'' | o <;> simp only [SameResult] at h h'
  · rw [h, h']
  · rcases o with _ | _ | _ | _ | _ | _
    all_goals first | exact absurd rfl (ho _ _) | skip
    all_goals rcases a with _ | _ | _ | _ | _ | _ <;> simp only [SameObs] at h
    all_goals rcases b with _ | _ | _ | _ | _ | _ <;> simp only [SameObs] at h'
    all_goals simp [h, h']

theorem run_looks {c c' : Client} {x : Objects} {R R' : ℕ → ℕ → Prop} (h : ORel c x R) (h' : ORel c' x R') (ops : List Op)
    (hq : ∀ op ∈ ops, op.OnQubits) :
    (((c.run 0 ops).1.zip ops).filter fun r => !r.2.looks).map Prod.fst = (c'.run 0 (ops.filter fun op => !op.looks)).1 ∧
      ∃ x' R1 R2, ORel (c.run 0 ops).2 x' R1 ∧ ORel (c'.run 0 (ops.filter fun op => !op.looks)).2 x' R2 := by
  induction ops generalizing c c' x R R' with
  | nil => exact ⟨rfl, x, R, R', h, h'⟩
  | cons op ops ih =>
    obtain ⟨h1, R1, h2⟩ := step_objects h (hq op (by simp))
    rcases hl : op.looks with _ | _
    · obtain ⟨h1', R1', h2'⟩ := step_objects h' (hq op (by simp))
      obtain ⟨h3, h4⟩ := ih h2 h2' fun y hy => hq y (by simp [hy])
      have := h1.eq h1' (x.step_acts hl)
      simp only [Client.run, List.zip_cons_cons, List.filter_cons, hl, Bool.not_false, if_true, List.map_cons]
      exact ⟨by rw [h3, this], h4⟩
    · rw [x.step_looks hl] at h2
      obtain ⟨h3, h4⟩ := ih h2 h' fun y hy => hq y (by simp [hy])
      simp only [Client.run, List.zip_cons_cons, List.filter_cons, hl, Bool.not_true, Bool.false_eq_true, if_false]
      exact ⟨h3, h4⟩

end Stoq
