import Verif.Model.Np

/-!
What `np.argmax` returns.
-/

namespace PFEM

theorem argmaxLoop_spec {α : Type} [LinearOrder α] : ∀ (l pre : List α) (best : ℕ) (v : α), pre[best]? = some v →
    (∀ x ∈ pre, x ≤ v) →
    ∃ w, (pre ++ l)[Np.argmaxLoop pre.length best v l]? = some w ∧ ∀ x ∈ pre ++ l, x ≤ w
  | [], pre, best, v, h, hm => by simpa [Np.argmaxLoop, h] using hm
  | x :: l, pre, best, v, h, hm => by
    unfold Np.argmaxLoop
    split
    · next hv =>
      have := argmaxLoop_spec l (pre ++ [x]) pre.length x (by simp) (by
        intro y hy
        rcases List.mem_append.1 hy with hy | hy
        · exact (hm y hy).trans hv.le
        · simp only [List.mem_singleton] at hy; exact hy.le)
      simpa using this
    · next hv =>
      have hb : best < pre.length := by
        by_contra hge
        rw [List.getElem?_eq_none (by omega)] at h; cases h
      have := argmaxLoop_spec l (pre ++ [x]) best v (by rw [List.getElem?_append_left hb, h]) (by
        intro y hy
        rcases List.mem_append.1 hy with hy | hy
        · exact hm y hy
        · simp only [List.mem_singleton] at hy; rw [hy]; exact not_lt.1 hv)
      simpa using this

/-- `np.argmax` returns the place of a largest entry -/
theorem argmax_spec {α : Type} [LinearOrder α] {l : List α} (h : l ≠ []) :
    ∃ k w, Np.argmax l = .ok k ∧ l[k]? = some w ∧ ∀ x ∈ l, x ≤ w := by
  match l, h with
  | x :: l, _ =>
    obtain ⟨w, h1, h2⟩ := argmaxLoop_spec l [x] 0 x (by simp) (by simp)
    exact ⟨_, w, rfl, h1, h2⟩

end PFEM
