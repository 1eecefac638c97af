import Verif.Props.FftConverge
import Verif.Lemmas.ContourSmooth
import Verif.Props.HarmInit
import Verif.Props.Recover
import Verif.Props.DiscParam
import Verif.Lemmas.Segment

/-!
Property theorems C100 on cells: the Fourier derivative of a trace converges to the weighted tangential derivative, and the
Fourier antiderivative of a weighted tangential derivative to the function, also on contours with corners.
-/

namespace PFEM
open Set Fft

/-- a sampled contour as uniform samples of one periodic function -/
theorem contour_samples {p n : ℤ} {d : Quad × Quad} (hd : getQuadDict n p = .ok d) {c c1 : ContourG} (hne : c.edges ≠ [])
    (hlo : c.edges.length = c.orients.length) (hdi : ∀ e ∈ c.edges, ∀ o ∈ e.diary, o.Good) {Cs : List PCurve} (hC : c.Curves Cs)
    {qt : String} (hq : ∀ e ∈ c.edges, e.quadType = qt) (h1 : c.parameterize d = .ok c1) :
    4 ≤ n ∧ c1.edges.length = Cs.length ∧ c1.cols.length = Cs.length * (2 * n.toNat) ∧
    ∀ (φ : Sample → ℝ) (F : PCurve → ℝ → ℝ), (∀ C ∈ Cs, ∀ t ∈ Icc 0 (2 * Real.pi),
        φ (C.sample (ruleMapOf p.toNat qt t) (wgtOf p.toNat qt t)) = F C t) →
      c1.cols.map φ = samples (Cs.length * (2 * n.toNat)) (2 * Real.pi * Cs.length)
        (glue (2 * Real.pi) Cs.length fun i => F (Cs.getD i restCurve)) := by
  have hrel := contour_rel hlo h1
  have hmem : ∀ q ∈ c.edges.zip c.orients, q.1 ∈ c.edges := fun q hq => (List.of_mem_zip hq).1
  have hcl := curves_length hC hlo
  have hm : 0 < Cs.length := by rw [hcl]; exact List.length_pos_of_ne_nil hne
  have hn : 4 ≤ n := ((C21_dict n p).1.1 ⟨d, hd⟩).1
  have hcols := contour_cols hd hC (fun q hq' => hdi q.1 (hmem q hq')) (fun q hq' => hq q.1 (hmem q hq')) hrel
  have hw : 0 < 2 * n.toNat := by omega
  rw [flatMap_range restCurve _ hw] at hcols
  have hcols' : c1.cols = _ := hcols
  refine ⟨hn, ?_, ?_, fun φ F hφ => ?_⟩
  · have := hrel.length_eq
    rw [← this, hcl, List.length_zip]
    omega
  · rw [hcols']; simp
  · rw [hcols', samples, List.map_map]
    refine List.map_congr_left fun k hk => ?_
    have hk := List.mem_range.1 hk
    have hpi := Real.pi_pos
    have hkw : k / (2 * n.toNat) < Cs.length := Nat.div_lt_of_lt_mul (by rwa [mul_comm])
    have hmodlt := Nat.mod_lt k hw
    have hmr : (0 : ℝ) < Cs.length := by exact_mod_cast hm
    have hwr : (0 : ℝ) < (2 * n.toNat : ℕ) := by exact_mod_cast hw
    have hdm : (k : ℝ) = (2 * n.toNat : ℕ) * (k / (2 * n.toNat) : ℕ) + (k % (2 * n.toNat) : ℕ) := by
      exact_mod_cast (Nat.div_add_mod k (2 * n.toNat)).symm
    have ht : (k : ℝ) * (2 * Real.pi * Cs.length) / (Cs.length * (2 * n.toNat) : ℕ) =
        2 * Real.pi * (k / (2 * n.toNat) : ℕ) + (k % (2 * n.toNat) : ℕ) * (2 * Real.pi / (2 * n.toNat : ℕ)) := by
      rw [Nat.cast_mul (Cs.length)]
      generalize hW : ((2 * n.toNat : ℕ) : ℝ) = w at *
      generalize ((k / (2 * n.toNat) : ℕ) : ℝ) = a at *
      generalize ((k % (2 * n.toNat) : ℕ) : ℝ) = b at *
      rw [hdm]
      field_simp
    have hb : (k % (2 * n.toNat) : ℕ) * (2 * Real.pi / (2 * n.toNat : ℕ)) < 2 * Real.pi := by
      rw [mul_div_assoc', div_lt_iff₀ hwr, mul_comm]
      have : ((k % (2 * n.toNat) : ℕ) : ℝ) < (2 * n.toNat : ℕ) := by exact_mod_cast hmodlt
      gcongr
    have hb0 : 0 ≤ (k % (2 * n.toNat) : ℕ) * (2 * Real.pi / (2 * n.toNat : ℕ)) := by positivity
    rw [ht, glue_left (z := (k / (2 * n.toNat) : ℕ)) (by positivity) (by rw [Int.cast_natCast]; linarith) (by rw [Int.cast_natCast]; linarith)]
    have hpa : pieceAt Cs.length ((k / (2 * n.toNat) : ℕ) : ℤ) = k / (2 * n.toNat) := by
      unfold pieceAt
      rw [← Int.natCast_mod, Int.toNat_natCast, Nat.mod_eq_of_lt hkw]
    rw [hpa, show 2 * Real.pi * ((k / (2 * n.toNat) : ℕ) : ℝ) + (k % (2 * n.toNat) : ℕ) * (2 * Real.pi / (2 * n.toNat : ℕ)) -
      2 * Real.pi * (((k / (2 * n.toNat) : ℕ) : ℤ) : ℝ) = (k % (2 * n.toNat) : ℕ) * (2 * Real.pi / (2 * n.toNat : ℕ)) by rw [Int.cast_natCast]; ring]
    simp only [Function.comp]
    refine hφ _ ?_ _ ⟨hb0, hb.le⟩
    rw [List.getD_eq_getElem _ _ hkw]
    exact List.getElem_mem hkw

theorem curves_smooth {c : ContourG} {Cs : List PCurve} (h : c.Curves Cs) : ∀ C ∈ Cs, C.Smooth ∧ C.Cinf := by
  intro C hC
  obtain ⟨i, hi, rfl⟩ := List.getElem_of_mem hC
  obtain ⟨C0, h1, h2⟩ := (List.forall₂_iff_get.1 h).2 i (by rw [(List.forall₂_iff_get.1 h).1]; exact hi) hi
  rw [List.get_eq_getElem] at h2
  rw [h2, oriented]
  split
  · exact ⟨(follows_smooth h1).reverse, (follows_cinf h1).reverse⟩
  · exact ⟨follows_smooth h1, follows_cinf h1⟩

/-- a bound in terms of the number of samples is a bound in terms of `n` -/
theorem bound_samples {M : ℝ} {m : ℕ} (hm : 0 < m) {n : ℤ} (hn : 4 ≤ n) (k : ℕ) :
    M / ((m * (2 * n.toNat) : ℕ) : ℝ) ^ k ≤ max M 0 / (n : ℝ) ^ k := by
  have hn' : (0 : ℝ) < n := by exact_mod_cast (by omega : (0 : ℤ) < n)
  have h : (n : ℝ) ≤ ((m * (2 * n.toNat) : ℕ) : ℝ) := by
    have h1 : n.toNat ≤ m * (2 * n.toNat) := by nlinarith
    have h2 : (n : ℝ) = (n.toNat : ℝ) := by rw [← Int.cast_natCast, Int.toNat_of_nonneg (by omega)]
    rw [h2]
    exact_mod_cast h1
  calc _ ≤ max M 0 / ((m * (2 * n.toNat) : ℕ) : ℝ) ^ k := by gcongr; exact le_max_left _ _
    _ ≤ _ := by gcongr

/-- the function along the contour and its derivative -/
theorem spectral_glue {c : ContourG} {p : ℤ} {k : ℕ} {Cs : List PCurve} {f g1 g2 : ℝ → ℝ → ℝ} (h : Spectral c p k Cs f g1 g2)
    (hp : 2 ≤ p) : ∃ qt, ∃ G : ℝ → ℝ, (∀ e ∈ c.edges, e.quadType = qt) ∧ 0 < 2 * Real.pi * Cs.length ∧
      (∀ t, G (t + 2 * Real.pi * Cs.length) = G t) ∧ ContDiff ℝ (k + 1 : ℕ) G ∧ (∃ Λ : NNReal, LipschitzWith Λ (iteratedDeriv (k + 1) G)) ∧
      ∀ {n d c1}, getQuadDict n p = .ok d → c.parameterize d = .ok c1 →
        (c1.cols.map fun s => f s.x s.y) = samples (Cs.length * (2 * n.toNat)) (2 * Real.pi * Cs.length) G ∧
        c1.cols.map (tangAt g1 g2) = samples (Cs.length * (2 * n.toNat)) (2 * Real.pi * Cs.length) (deriv G) := by
  have hpi : (0 : ℝ) < 2 * Real.pi := by positivity
  have hcs := curves_smooth h.curves
  have hm : 0 < Cs.length := by rw [curves_length h.curves h.orients]; exact List.length_pos_of_ne_nil h.nonempty
  obtain ⟨qt, hqt, hl, hmeet⟩ := along_meets h.chained hp h.rule (fun C hC => (hcs C hC).2) h.smooth
  have hget : ∀ i < Cs.length, Cs.getD i restCurve ∈ Cs := fun i hi => by
    rw [List.getD_eq_getElem _ _ hi]; exact List.getElem_mem hi
  obtain ⟨hG1, hG2, hG3⟩ := glue_smooth hpi hm (q := k + 1) (F := fun i => along f (ruleMapOf p.toNat qt) (Cs.getD i restCurve))
    (fun i hi t ht => along_contDiff hl (hcs _ (hget i hi)).2 (h.smooth _ (hget i hi)) t ht) hmeet
  refine ⟨qt, _, hqt, by positivity, fun t => glue_periodic hpi t, hG1, hG3, fun {n d c1} hd h1 => ?_⟩
  obtain ⟨-, -, -, hs⟩ := contour_samples hd h.nonempty h.orients h.diaries h.curves hqt h1
  refine ⟨hs _ _ fun C _ t _ => rfl, ?_⟩
  have hder := hG2 1 (by omega)
  rw [iteratedDeriv_one] at hder
  rw [hder]
  refine hs _ (fun C => iteratedDeriv 1 (along f (ruleMapOf p.toNat qt) C)) fun C hC t ht => ?_
  rw [iteratedDeriv_one, (along_deriv hl (hcs C hC).1 (by omega) (h.smooth C hC) (h.grad C hC) ht).deriv, tangAt]
  have := density_circulation g1 g2 C (ruleMapOf p.toNat qt t) (wgtOf p.toNat qt t)
  simp only at this
  rw [← this]
  simp only [PCurve.sample]
  ring

theorem near_of {ε : ℝ} {w : List ℝ} {l : List Sample} {φ : Sample → ℝ} (hl : w.length = l.length)
    (h : ∀ i s, l[i]? = some s → |w.getD i 0 - φ s| ≤ ε) : Near ε w (l.map φ) := by
  refine List.forall₂_iff_get.2 ⟨by simp [hl], fun i h1 h2 => ?_⟩
  have h3 : i < l.length := by simpa using h2
  have := h i _ (List.getElem?_eq_getElem h3)
  rw [List.getD_eq_getElem _ _ h1] at this
  simpa using this

/-- C100 on a contour: the Fourier derivative of the values of a function converges to its weighted tangential derivative. -/
theorem C100_contour {c : ContourG} {p : ℤ} {k : ℕ} (hk : 1 ≤ k) {Cs : List PCurve} {f g1 g2 : ℝ → ℝ → ℝ}
    (h : Spectral c p k Cs f g1 g2) :
    ∃ M, 0 ≤ M ∧ ∀ n d c1, getQuadDict n p = .ok d → c.parameterize d = .ok c1 →
      (∃ w, fftDerivative (c1.cols.map fun s => f s.x s.y) (2 * Real.pi * c1.edges.length) = .ok w ∧
        Near (M / (n : ℝ) ^ k) w (c1.cols.map (tangAt g1 g2))) ∧
      ∃ w q, fftAntiderivative (c1.cols.map (tangAt g1 g2)) (2 * Real.pi * c1.edges.length) = .ok w ∧
        Near (M / (n : ℝ) ^ k) w (c1.cols.map fun s => f s.x s.y - q) := by
  by_cases hp : 2 ≤ p
  swap
  · exact ⟨0, le_rfl, fun n d c1 hd _ => absurd ((C21_dict n p).1.1 ⟨d, hd⟩).2 hp⟩
  obtain ⟨qt, G, hqt, hL, hper, hG, ⟨Λ, hΛ⟩, hsam⟩ := spectral_glue h hp
  obtain ⟨A, hA⟩ := C100_derivative hL hper hk hG hΛ
  obtain ⟨B, hB⟩ := C100_antiderivative hL hper hk hG hΛ 0
  have hm : 0 < Cs.length := by rw [curves_length h.curves h.orients]; exact List.length_pos_of_ne_nil h.nonempty
  refine ⟨max (max A 0) (max B 0), le_max_of_le_left (le_max_right _ _), fun n d c1 hd h1 => ?_⟩
  obtain ⟨hn, hel, hlen, -⟩ := contour_samples hd h.nonempty h.orients h.diaries h.curves hqt h1
  obtain ⟨s1, s2⟩ := hsam hd h1
  have hn' : (0 : ℝ) < n := by exact_mod_cast (by omega : (0 : ℤ) < n)
  have hN : 0 < Cs.length * (2 * n.toNat) := Nat.mul_pos hm (by omega)
  have hget : ∀ {φ : Sample → ℝ} {H : ℝ → ℝ}, c1.cols.map φ = samples (Cs.length * (2 * n.toNat)) (2 * Real.pi * Cs.length) H →
      ∀ i s, c1.cols[i]? = some s → i < Cs.length * (2 * n.toNat) ∧
        φ s = H (i * (2 * Real.pi * Cs.length) / (Cs.length * (2 * n.toNat) : ℕ)) := by
    intro φ H he i s hi
    obtain ⟨hi1, hi2⟩ := List.getElem?_eq_some_iff.1 hi
    have hi3 : i < Cs.length * (2 * n.toNat) := by rw [← hlen]; exact hi1
    refine ⟨hi3, ?_⟩
    have := congrArg (fun l => l[i]?) he
    simp only [List.getElem?_map, hi, Option.map_some] at this
    rw [samples, List.getElem?_map, List.getElem?_range hi3, Option.map_some, Option.some.injEq] at this
    exact this
  rw [hel]
  constructor
  · obtain ⟨w, k1, k2, k3⟩ := hA _ hN
    refine ⟨w, by rw [s1]; exact k1, near_of (by rw [k2, hlen]) fun i s hi => ?_⟩
    obtain ⟨hi1, hi2⟩ := hget s2 i s hi
    rw [hi2]
    exact (k3 i hi1).trans ((bound_samples hm hn k).trans (div_le_div_of_nonneg_right (le_max_left _ _) (by positivity)))
  · obtain ⟨w, k1, k2, k3⟩ := hB _ hN
    refine ⟨w, (∫ t in (0 : ℝ)..2 * Real.pi * Cs.length, G t) / (2 * Real.pi * Cs.length), ?_, near_of (by rw [k2, hlen]) fun i s hi => ?_⟩
    · rw [s2]
      simpa only [add_zero] using k1
    · obtain ⟨hi1, hi2⟩ := hget s1 i s hi
      rw [hi2]
      exact (k3 i hi1).trans ((bound_samples hm hn k).trans (div_le_div_of_nonneg_right (le_max_right _ _) (by positivity)))

/-! ### cells -/

theorem exists_common {α : Type} (P : α → ℝ → Prop) (hmono : ∀ a M M', M ≤ M' → P a M → P a M') (l : List α)
    (h : ∀ a ∈ l, ∃ M, P a M) : ∃ M, ∀ a ∈ l, P a M := by
  induction l with
  | nil => exact ⟨0, by simp⟩
  | cons a l ih =>
    obtain ⟨A, hA⟩ := h a (by simp)
    obtain ⟨B, hB⟩ := ih fun b hb => h b (by simp [hb])
    refine ⟨max A B, fun b hb => ?_⟩
    rcases List.mem_cons.1 hb with rfl | hb
    · exact hmono _ _ _ (le_max_left _ _) hA
    · exact hmono _ _ _ (le_max_right _ _) (hB b hb)

theorem Near.mono {ε ε' : ℝ} (h : ε ≤ ε') {u v : List ℝ} (hn : Near ε u v) : Near ε' u v := hn.imp fun _ _ h1 => h1.trans h

theorem near_flatten {ε : ℝ} {us vs : List (List ℝ)} (h : List.Forall₂ (Near ε) us vs) : Near ε us.flatten vs.flatten := by
  induction h with
  | nil => exact List.Forall₂.nil
  | cons h _ ih => exact List.rel_append h ih

theorem forall_zip_map {α β γ : Type} {R : α × β → γ → Prop} {S : α → γ → Prop} {g : α → β} {cs : List α} {vs : List γ}
    (h : List.Forall₂ R (cs.zip (cs.map g)) vs) (hRS : ∀ c ∈ cs, ∀ v, R (c, g c) v → S c v) : List.Forall₂ S cs vs := by
  induction cs generalizing vs with
  | nil => cases h; exact List.Forall₂.nil
  | cons c cs ih =>
    simp only [List.map_cons, List.zip_cons_cons] at h
    cases h with
    | cons h1 h2 => exact .cons (hRS c (by simp) _ h1) (ih h2 fun c hc => hRS c (by simp [hc]))

/-- every sampled component comes from a component of the cell -/
theorem sampled_component {n p : ℤ} {d : Quad × Quad} (hd : getQuadDict n p = .ok d) {inside : InsideTest} {fuel : ℕ}
    {K K1 : CellG} (ho : ∀ c ∈ K.components, c.edges.length = c.orients.length)
    (h : K.parameterize inside fuel d = some (.ok K1)) {c' : ContourG} (hc' : c' ∈ K1.components) :
    ∃ c ∈ K.components, ∃ c1, c.parameterize d = .ok c1 ∧ c'.cols = c1.cols ∧ c'.edges = c1.edges := by
  obtain ⟨⟨cs, hperm, hF⟩, -⟩ := C33_parameterize hd ho h
  have hm := hperm.mem_iff.1 hc'
  obtain ⟨i, hi, rfl⟩ := List.getElem_of_mem hm
  have hl := (List.forall₂_iff_get.1 hF).1
  obtain ⟨c1, h1, h2⟩ := (List.forall₂_iff_get.1 hF).2 i (by omega) hi
  rw [List.get_eq_getElem] at h2
  obtain ⟨pt, he⟩ := findInterior_fields h2
  exact ⟨_, List.getElem_mem (by omega : i < K.components.length), c1, h1, by rw [he]; rfl, by rw [he]⟩

/-- C100: on a sampled cell the Fourier derivative of a trace is within `M / n ^ k` of the weighted tangential derivative at every
sample, and the Fourier antiderivative of a weighted tangential derivative is within `M / n ^ k` of the function, up to one
constant on every boundary component. -/
theorem C100_cell {K : CellG} {p : ℤ} {k : ℕ} (hk : 1 ≤ k) {f g1 g2 : ℝ → ℝ → ℝ}
    (h : ∀ c ∈ K.components, ∃ Cs, Spectral c p k Cs f g1 g2) :
    ∃ M, ∀ n d inside fuel K1, getQuadDict n p = .ok d → K.parameterize inside fuel d = some (.ok K1) →
      (∃ w, wtdFromTrace K1 (K1.samplesOf f) = .ok w ∧ Near (M / (n : ℝ) ^ k) w (K1.tangentOf g1 g2)) ∧
      ∃ ws, antiderivativeOnComponents K1 (K1.tangentOf g1 g2) = .ok ws.flatten ∧
        List.Forall₂ (fun c w => ∃ q, Near (M / (n : ℝ) ^ k) w (c.cols.map fun s => f s.x s.y - q)) K1.components ws := by
  obtain ⟨M, hM⟩ := exists_common (fun (c : ContourG) M => ∀ n d c1, getQuadDict n p = .ok d → c.parameterize d = .ok c1 →
      (∃ w, fftDerivative (c1.cols.map fun s => f s.x s.y) (2 * Real.pi * c1.edges.length) = .ok w ∧
        Near (M / (n : ℝ) ^ k) w (c1.cols.map (tangAt g1 g2))) ∧
      ∃ w q, fftAntiderivative (c1.cols.map (tangAt g1 g2)) (2 * Real.pi * c1.edges.length) = .ok w ∧
        Near (M / (n : ℝ) ^ k) w (c1.cols.map fun s => f s.x s.y - q))
    (fun c M M' hMM h n d c1 hd h1 => by
      have hn : (0 : ℝ) ≤ n := by
        have := ((C21_dict n p).1.1 ⟨d, hd⟩).1
        exact_mod_cast (by omega : (0 : ℤ) ≤ n)
      have hle : M / (n : ℝ) ^ k ≤ M' / (n : ℝ) ^ k := div_le_div_of_nonneg_right hMM (by positivity)
      obtain ⟨⟨w, k1, k2⟩, w', q, k3, k4⟩ := h n d c1 hd h1
      exact ⟨⟨w, k1, k2.mono hle⟩, w', q, k3, k4.mono hle⟩) K.components
    (fun c hc => by
      obtain ⟨Cs, hs⟩ := h c hc
      obtain ⟨M, -, hM⟩ := C100_contour hk hs
      exact ⟨M, hM⟩)
  refine ⟨M, fun n d inside fuel K1 hd h1 => ?_⟩
  have ho : ∀ c ∈ K.components, c.edges.length = c.orients.length := fun c hc => (h c hc).choose_spec.orients
  obtain ⟨-, -, -, hR, hU⟩ := C33_parameterize hd ho h1
  have hU := hU fun c hc => (h c hc).choose_spec.nonempty
  have hne : ∀ c ∈ K1.components, c.edges ≠ [] := fun c hc => (hU c hc).1
  have hcon : ∀ c' ∈ K1.components, (∃ w, fftDerivative (c'.cols.map fun s => f s.x s.y) (2 * Real.pi * c'.edges.length) = .ok w ∧
        Near (M / (n : ℝ) ^ k) w (c'.cols.map (tangAt g1 g2))) ∧
      ∃ w q, fftAntiderivative (c'.cols.map (tangAt g1 g2)) (2 * Real.pi * c'.edges.length) = .ok w ∧
        Near (M / (n : ℝ) ^ k) w (c'.cols.map fun s => f s.x s.y - q) := by
    intro c' hc'
    obtain ⟨c, hc, c1, k1, k2, k3⟩ := sampled_component hd ho h1 hc'
    rw [k2, k3]
    exact hM c hc n d c1 hd k1
  have hfit : ∀ φ : Sample → ℝ, Fits K1 (K1.components.map fun c => c.cols.map φ) := fun φ => by
    simp only [Fits, List.map_map]
    exact List.map_congr_left fun c _ => by simp
  have e1 : K1.samplesOf f = (K1.components.map fun c => c.cols.map fun s => f s.x s.y).flatten := samples_blocks K1 _
  have e2 : K1.tangentOf g1 g2 = (K1.components.map fun c => c.cols.map (tangAt g1 g2)).flatten := samples_blocks K1 _
  constructor
  · obtain ⟨vs, hf, hw⟩ := (C49_cell hR hne (hfit fun s => f s.x s.y)).1
    refine ⟨vs.flatten, by rw [e1, hw], ?_⟩
    rw [e2]
    refine near_flatten ?_
    rw [List.forall₂_map_right_iff]
    refine (forall_zip_map (S := fun c v => Near (M / (n : ℝ) ^ k) v (c.cols.map (tangAt g1 g2))) hf fun c hc v hv => ?_).flip
    obtain ⟨⟨w, k1, k2⟩, -⟩ := hcon c hc
    simp only at hv
    rw [k1] at hv
    cases hv
    exact k2
  · obtain ⟨vs, hf, hw⟩ := (C49_cell hR hne (hfit (tangAt g1 g2))).2
    refine ⟨vs, by rw [e2, hw], forall_zip_map hf fun c hc v hv => ?_⟩
    obtain ⟨-, w, q, k1, k2⟩ := hcon c hc
    simp only at hv
    rw [k1] at hv
    cases hv
    exact ⟨q, k2⟩

/-! ### the hypotheses can be met -/

/-- a function that is not a polynomial, with its gradient -/
theorem wave_grad (x y : ℝ) : HasGrad (fun x y => Real.exp x * Real.sin y) x y (Real.exp x * Real.sin y) (Real.exp x * Real.cos y) :=
  ⟨(Real.hasDerivAt_exp x).mul_const _, (Real.hasDerivAt_sin y).const_mul _⟩

theorem wave_smooth (k : ℕ) (q : ℝ × ℝ) : ContDiffAt ℝ k (fun q : ℝ × ℝ => Real.exp q.1 * Real.sin q.2) q :=
  ((Real.contDiff_exp.comp contDiff_fst).mul (Real.contDiff_sin.comp contDiff_snd)).contDiffAt

/-- the boundary of the triangle with corners `a`, `b`, `c`, the last side against the direction of its edge -/
noncomputable def triangle (a b c : Vert) : ContourG :=
  { edges := [sideEdge a b "kress", sideEdge b c "kress", sideEdge a c "kress"], orients := [1, 1, -1] }

theorem triangle_spectral (a b c : Vert) : Spectral (triangle a b c) 7 5 [sideCurve a b, sideCurve b c, (sideCurve a c).reverse]
    (fun x y => Real.exp x * Real.sin y) (fun x y => Real.exp x * Real.sin y) fun x y => Real.exp x * Real.cos y := by
  refine ⟨by simp [triangle], rfl, by simp [triangle, sideEdge, EdgeOp.Good], ?_, ?_, .inl ⟨by simp [triangle, sideEdge], by norm_num⟩,
    fun _ _ _ _ => wave_smooth _ _, fun _ _ _ _ => wave_grad _ _⟩
  · exact .cons ⟨_, side_follows a b _, by simp [oriented]⟩ (.cons ⟨_, side_follows b c _, by simp [oriented]⟩
      (.cons ⟨_, side_follows a c _, by simp [oriented]⟩ .nil))
  · rintro (_ | _ | _ | i) C C' h1 h2
    · obtain rfl : sideCurve a b = C := by simpa using h1
      obtain rfl : sideCurve b c = C' := by simpa using h2
      simp [sideCurve]
    · obtain rfl : sideCurve b c = C := by simpa using h1
      obtain rfl : (sideCurve a c).reverse = C' := by simpa using h2
      simp [sideCurve, PCurve.reverse]
    · obtain rfl : (sideCurve a c).reverse = C := by simpa using h1
      obtain rfl : sideCurve a b = C' := by simpa using h2
      simp [sideCurve, PCurve.reverse]
    · simp at h1

/-- C100: on a triangle, with the default rule, the error of the tangential derivative of `exp x * sin y` has order 5; and the
triangle is sampled for every `n`. -/
example {a b c : Vert} (h1 : EdgeG.TOL ≤ ‖b.z - a.z‖) (h2 : EdgeG.TOL ≤ ‖c.z - b.z‖) (h3 : EdgeG.TOL ≤ ‖c.z - a.z‖) :
    ∃ M : ℝ, ∀ n, 4 ≤ n → ∃ d c1 w, getQuadDict n 7 = .ok d ∧ (triangle a b c).parameterize d = .ok c1 ∧
      fftDerivative (c1.cols.map fun s => Real.exp s.x * Real.sin s.y) (2 * Real.pi * c1.edges.length) = .ok w ∧
      Near (M / (n : ℝ) ^ 5) w (c1.cols.map (tangAt (fun x y => Real.exp x * Real.sin y) fun x y => Real.exp x * Real.cos y)) := by
  obtain ⟨M, -, hM⟩ := C100_contour (by norm_num) (triangle_spectral a b c)
  refine ⟨M, fun n hn => ?_⟩
  obtain ⟨d, hd⟩ := (C21_dict n 7).1.2 ⟨hn, by norm_num⟩
  obtain ⟨c1, hc1⟩ := C28_success hd (c := triangle a b c) rfl (by
    simp only [triangle, List.mem_cons, List.not_mem_nil, or_false]
    rintro e (rfl | rfl | rfl)
    · exact side_parameterize hd h1 (.inr rfl)
    · exact side_parameterize hd h2 (.inr rfl)
    · exact side_parameterize hd h3 (.inr rfl))
  obtain ⟨⟨w, k1, k2⟩, -⟩ := hM n d c1 hd hc1
  exact ⟨d, c1, w, hd, hc1, k1, k2⟩

theorem circle_spectral (k : ℕ) : Spectral { edges := [shiftedCircle "trap"], orients := [1] } 7 k [circleCurve]
    (fun x y => Real.exp x * Real.sin y) (fun x y => Real.exp x * Real.sin y) fun x y => Real.exp x * Real.cos y := by
  refine ⟨by simp, rfl, by simp [shiftedCircle, unitCircle, EdgeOp.Good], ?_, ?_, .inr ⟨_, _, rfl, rfl, rfl, ?_⟩,
    fun _ _ _ _ => wave_smooth _ _, fun _ _ _ _ => wave_grad _ _⟩
  · exact .cons ⟨circleCurve, shiftedCircle_follows _, by simp [oriented]⟩ .nil
  · rintro (_ | i) C C' h1 h2
    · obtain rfl : circleCurve = C := by simpa using h1
      obtain rfl : circleCurve = C' := by simpa using h2
      simp [circleCurve]
    · simp at h1
  · intro s
    simp [circleCurve]

/-- C100: the cell inside a circle is parameterized for every `n`, and there the error has every order. -/
example (k : ℕ) (hk : 1 ≤ k) : ∃ M : ℝ, ∀ n, 4 ≤ n → ∃ d inside K1 w, getQuadDict n 7 = .ok d ∧
    (circleCell "trap").parameterize inside 8 d = some (.ok K1) ∧
    wtdFromTrace K1 (K1.samplesOf fun x y => Real.exp x * Real.sin y) = .ok w ∧
    Near (M / (n : ℝ) ^ k) w (K1.tangentOf (fun x y => Real.exp x * Real.sin y) fun x y => Real.exp x * Real.cos y) := by
  classical
  obtain ⟨M, hM⟩ := C100_cell (K := circleCell "trap") hk (by
    intro c hc
    simp only [circleCell, List.mem_singleton] at hc
    subst hc
    exact ⟨_, circle_spectral k⟩)
  refine ⟨M, fun n hn => ?_⟩
  obtain ⟨d, hd⟩ := (C21_dict n 7).1.2 ⟨hn, by norm_num⟩
  obtain ⟨K1, hK1⟩ := C87_circle hd (inside := fun _ q => decide ((q.1 - 2) ^ 2 + (q.2 - 3) ^ 2 < 1)) (fuel := 8) le_rfl
    (K := circleCell "trap") (c := { edges := [shiftedCircle "trap"], orients := [1] }) (e := shiftedCircle "trap") (a := Vert.mk' 2 3)
    rfl rfl rfl rfl (by simp [shiftedCircle, unitCircle, Curve.radius]; norm_num) rfl rfl rfl (by
      intro poly q hq
      simp only [Vert.mk', shiftedCircle, unitCircle, Curve.radius, Option.getD_none] at hq
      simp only [decide_eq_true_eq]
      norm_num at hq
      linarith)
  obtain ⟨⟨w, k1, k2⟩, -⟩ := hM n d _ 8 K1 hd hK1
  exact ⟨d, _, K1, w, hd, hK1, k1, k2⟩

end PFEM
