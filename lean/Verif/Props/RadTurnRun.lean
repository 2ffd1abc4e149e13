import Verif.Lemmas.CutDisp

/-!
# C132 with the search for guided modes

The guided modes of a structure and of the structure upside down or subdivided are found by separate searches, with root finders
of which only the defining property is known.
-/
namespace Legume

open Spec

/-- **C132 (upside down, run).** A structure and the structure upside down, each with the guided modes that the code finds with
a root finder of its own: the same frequencies, and channels, losses and radiated powers as in `C132_upside_down`. The guided
modes of each polarisation must be further apart than the step of the search, and no sampled frequency on a light line. -/
theorem C132_run (argsort : List ℝ → List ℕ) (hs : ∀ l, IsArgsort l (argsort l))
    (eigh : ∀ n, Matrix (Fin n) (Fin n) ℂ → Fin n → ℝ) (vecs : ∀ n, Matrix (Fin n) (Fin n) ℂ → Matrix (Fin n) (Fin n) ℂ)
    (he : SortedEigh eigh) (hp : EighPair eigh vecs) (fs fs' : Finder) (o : GuidedOpts) (ho : ExactOpts o) (ht : 0 < o.tol)
    (S : GmeStruct) (gmax : ℝ) (onlyG : Bool)
    (opt : String) (e0 eN : ℝ) (ls : List (ℝ × ℝ)) (hne : ls ≠ []) (hd : ∀ l ∈ ls, 0 ≤ l.2) (h0 : 0 < e0) (hN : 0 < eN)
    (hl : ∀ l ∈ ls, 0 < l.1) (hfs : RootFinder fs e0 eN ls) (hfs' : RootFinder fs' eN e0 ls.reverse)
    (hclad : cladAvgs S = (e0, eN))
    (hst : ∀ eff, S.layers.mapM (GmeLay.eff opt) = .ok eff →
      (S.layers.map GmeLay.pos).zip eff = slabStack e0 eN ls) (ks : List R2)
    (hsep : ∀ k ∈ ks, SeparateWaves fs o e0 eN ls (waveLengths o (S.gvec gmax) k))
    (hclear : ∀ k ∈ ks, ClearSearch fs o e0 eN ls ((waveLengths o (S.gvec gmax) k).insertionSort (· ≤ ·)))
    (sigma : ℝ) (numeig : ℕ) :
    gmeSimIj ijExact argsort eigh (codeGuided normExact fs' o) S.turned gmax onlyG opt ks sigma numeig =
      gmeSimIj ijExact argsort eigh (codeGuided normExact fs o) S gmax onlyG opt ks sigma numeig ∧
    SameOutcome (SwappedRun (fun u => !u) S gmax e0 eN ls o.deltaGx eigh (codeGuided normExact fs o) onlyG opt ks)
      (radSimIj ijExact o.deltaGx argsort eigh vecs (codeGuided normExact fs o) S gmax onlyG opt ks sigma numeig)
      (radSimIj ijExact o.deltaGx argsort eigh vecs (codeGuided normExact fs' o) S.turned gmax onlyG opt ks sigma numeig) := by
  have hg := code_same fs fs' o e0 eN eN e0 ls ls.reverse hne h0 hN hl hfs (by simpa using hne) hN h0
    (fun l h => hl l (List.mem_reverse.1 h)) hfs' ho (S.gvec gmax) ks hsep (fun k hk pol hpol =>
      freqs_flip fs fs' o e0 eN ls hne h0 hN hl hfs hfs' ho.step ht ho.tol1 _
        (fun g hg => (hsep k hk).min g ((List.perm_insertionSort _ _).mem_iff.1 hg)) (hclear k hk) pol hpol)
  exact ⟨C132_frequencies argsort eigh he _ _ S gmax onlyG opt e0 eN ls hne hd h0 hN (fun l h => (hl l h).ne') hst ks o.deltaGx
    hg sigma numeig, C132_upside_down argsort hs eigh vecs he hp _ _ S gmax onlyG opt e0 eN ls hne hd h0 hN
    (fun l h => (hl l h).ne') hclad hst ks o.deltaGx hg sigma numeig⟩

/-- **C132 (slab upside down, run).** For one layer between the claddings the searches sample the same numbers, and the same
root finder serves both. -/
theorem C132_run_slab (argsort : List ℝ → List ℕ) (hs : ∀ l, IsArgsort l (argsort l))
    (eigh : ∀ n, Matrix (Fin n) (Fin n) ℂ → Fin n → ℝ) (vecs : ∀ n, Matrix (Fin n) (Fin n) ℂ → Matrix (Fin n) (Fin n) ℂ)
    (he : SortedEigh eigh) (hp : EighPair eigh vecs) (fs : Finder) (o : GuidedOpts) (ho : ExactOpts o)
    (S : GmeStruct) (gmax : ℝ) (onlyG : Bool)
    (opt : String) (e0 eN : ℝ) (l : ℝ × ℝ) (hd : 0 ≤ l.2) (h0 : 0 < e0) (hN : 0 < eN)
    (hl : 0 < l.1) (hfs : RootFinder fs e0 eN [l])
    (hclad : cladAvgs S = (e0, eN))
    (hst : ∀ eff, S.layers.mapM (GmeLay.eff opt) = .ok eff →
      (S.layers.map GmeLay.pos).zip eff = slabStack e0 eN [l]) (ks : List R2)
    (hsep : ∀ k ∈ ks, SeparateWaves fs o e0 eN [l] (waveLengths o (S.gvec gmax) k))
    (sigma : ℝ) (numeig : ℕ) :
    gmeSimIj ijExact argsort eigh (codeGuided normExact fs o) S.turned gmax onlyG opt ks sigma numeig =
      gmeSimIj ijExact argsort eigh (codeGuided normExact fs o) S gmax onlyG opt ks sigma numeig ∧
    SameOutcome (SwappedRun (fun u => !u) S gmax e0 eN [l] o.deltaGx eigh (codeGuided normExact fs o) onlyG opt ks)
      (radSimIj ijExact o.deltaGx argsort eigh vecs (codeGuided normExact fs o) S gmax onlyG opt ks sigma numeig)
      (radSimIj ijExact o.deltaGx argsort eigh vecs (codeGuided normExact fs o) S.turned gmax onlyG opt ks sigma numeig) := by
  have hl' : ∀ l' ∈ [l], 0 < l'.1 := by simpa using hl
  have hg := code_same fs fs o e0 eN eN e0 [l] [l].reverse (by simp) h0 hN hl' hfs (by simp) hN h0
    (by simpa using hl) (rootFinder_one_flip hfs) ho (S.gvec gmax) ks hsep (fun k hk pol hpol =>
      freqs_flip_one fs o e0 eN l pol _)
  exact ⟨C132_frequencies argsort eigh he _ _ S gmax onlyG opt e0 eN [l] (by simp) (by simpa using hd) h0 hN
    (fun l h => (hl' l h).ne') hst ks o.deltaGx hg sigma numeig,
    C132_upside_down argsort hs eigh vecs he hp _ _ S gmax onlyG opt e0 eN [l] (by simp) (by simpa using hd) h0 hN
    (fun l h => (hl' l h).ne') hclad hst ks o.deltaGx hg sigma numeig⟩

/-- **C132 (subdivision, run).** A structure and the structure with one layer written as two, each with the guided modes that
the code finds with a root finder of its own. -/
theorem C132_run_subdivision (argsort : List ℝ → List ℕ) (hs : ∀ l, IsArgsort l (argsort l))
    (eigh : ∀ n, Matrix (Fin n) (Fin n) ℂ → Fin n → ℝ) (vecs : ∀ n, Matrix (Fin n) (Fin n) ℂ → Matrix (Fin n) (Fin n) ℂ)
    (he : SortedEigh eigh) (hp : EighPair eigh vecs) (fs fs' : Finder) (o : GuidedOpts) (ho : ExactOpts o) (ht : 0 < o.tol)
    (S : GmeStruct) (gmax : ℝ) (onlyG : Bool)
    (opt : String) (e0 eN e d1 d2 : ℝ) (l1 l2 : List (ℝ × ℝ)) (hd1 : 0 ≤ d1) (hd2 : 0 ≤ d2) (h0 : 0 < e0) (hN : 0 < eN)
    (hl : ∀ l ∈ l1 ++ (e, d1 + d2) :: l2, 0 < l.1) (hfs : RootFinder fs e0 eN (l1 ++ (e, d1 + d2) :: l2))
    (hfs' : RootFinder fs' e0 eN (l1 ++ (e, d1) :: (e, d2) :: l2))
    (hclad : cladAvgs S = (e0, eN)) (L1 L2 : List GmeLay) (l : GmeLay)
    (hS : S.layers = L1 ++ l :: L2) (hL1 : L1.length = l1.length + 1) (hL2 : L2 ≠ [])
    (hst : ∀ eff, S.layers.mapM (GmeLay.eff opt) = .ok eff →
      (S.layers.map GmeLay.pos).zip eff = slabStack e0 eN (l1 ++ (e, d1 + d2) :: l2)) (ks : List R2)
    (hsep : ∀ k ∈ ks, SeparateWaves fs o e0 eN (l1 ++ (e, d1 + d2) :: l2) (waveLengths o (S.gvec gmax) k))
    (hclear : ∀ k ∈ ks, ClearSearch fs o e0 eN (l1 ++ (e, d1 + d2) :: l2)
      ((waveLengths o (S.gvec gmax) k).insertionSort (· ≤ ·)))
    (sigma : ℝ) (numeig : ℕ) :
    gmeSimIj ijExact argsort eigh (codeGuided normExact fs' o) (S.cut L1 l L2 d1 d2) gmax onlyG opt ks sigma numeig =
      gmeSimIj ijExact argsort eigh (codeGuided normExact fs o) S gmax onlyG opt ks sigma numeig ∧
    SameOutcome (SwappedRun id S gmax e0 eN (l1 ++ (e, d1 + d2) :: l2) o.deltaGx eigh (codeGuided normExact fs o) onlyG opt ks)
      (radSimIj ijExact o.deltaGx argsort eigh vecs (codeGuided normExact fs o) S gmax onlyG opt ks sigma numeig)
      (radSimIj ijExact o.deltaGx argsort eigh vecs (codeGuided normExact fs' o) (S.cut L1 l L2 d1 d2) gmax onlyG opt ks sigma
        numeig) := by
  have hg := code_same fs fs' o e0 eN e0 eN _ _ (by simp) h0 hN hl hfs (by simp) h0 hN
    (cut_mem.2 hl) hfs' ho (S.gvec gmax) ks hsep (fun k hk pol hpol =>
      freqs_cut fs fs' o e0 eN e d1 d2 l1 l2 h0 hN hl hfs hfs' ho.step ht ho.tol1 _
        (fun g hg => (hsep k hk).min g ((List.perm_insertionSort _ _).mem_iff.1 hg)) (hclear k hk) pol hpol)
  exact ⟨C132_subdivision_frequencies argsort eigh he _ _ S gmax onlyG opt e0 eN e d1 d2 l1 l2 hd1 hd2 h0 hN
    (fun l h => (hl l h).ne') L1 L2 l hS hL1 hst ks o.deltaGx hg sigma numeig,
    C132_subdivision argsort hs eigh vecs he hp _ _ S gmax onlyG opt e0 eN e d1 d2 l1 l2 hd1 hd2 h0 hN
    (fun l h => (hl l h).ne') hclad L1 L2 l hS hL1 hL2 hst ks o.deltaGx hg sigma numeig⟩

/-- **C132 (subdivision of one of several layers, run).** With another layer between the claddings the dispersion function is
the same number at every frequency, on and off light lines, so that the same root finder serves both searches and nothing need
be assumed of the guided modes. -/
theorem C132_run_layers (argsort : List ℝ → List ℕ) (hs : ∀ l, IsArgsort l (argsort l))
    (eigh : ∀ n, Matrix (Fin n) (Fin n) ℂ → Fin n → ℝ) (vecs : ∀ n, Matrix (Fin n) (Fin n) ℂ → Matrix (Fin n) (Fin n) ℂ)
    (he : SortedEigh eigh) (hp : EighPair eigh vecs) (fs : Finder) (o : GuidedOpts) (ho : ExactOpts o)
    (S : GmeStruct) (gmax : ℝ) (onlyG : Bool)
    (opt : String) (e0 eN e d1 d2 : ℝ) (l1 l2 : List (ℝ × ℝ)) (h12 : l1 ≠ [] ∨ l2 ≠ []) (hd1 : 0 ≤ d1) (hd2 : 0 ≤ d2)
    (h0 : 0 < e0) (hN : 0 < eN)
    (hl : ∀ l ∈ l1 ++ (e, d1 + d2) :: l2, 0 < l.1) (hfs : RootFinder fs e0 eN (l1 ++ (e, d1 + d2) :: l2))
    (hclad : cladAvgs S = (e0, eN)) (L1 L2 : List GmeLay) (l : GmeLay)
    (hS : S.layers = L1 ++ l :: L2) (hL1 : L1.length = l1.length + 1) (hL2 : L2 ≠ [])
    (hst : ∀ eff, S.layers.mapM (GmeLay.eff opt) = .ok eff →
      (S.layers.map GmeLay.pos).zip eff = slabStack e0 eN (l1 ++ (e, d1 + d2) :: l2)) (ks : List R2)
    (hsep : ∀ k ∈ ks, SeparateWaves fs o e0 eN (l1 ++ (e, d1 + d2) :: l2) (waveLengths o (S.gvec gmax) k))
    (sigma : ℝ) (numeig : ℕ) :
    gmeSimIj ijExact argsort eigh (codeGuided normExact fs o) (S.cut L1 l L2 d1 d2) gmax onlyG opt ks sigma numeig =
      gmeSimIj ijExact argsort eigh (codeGuided normExact fs o) S gmax onlyG opt ks sigma numeig ∧
    SameOutcome (SwappedRun id S gmax e0 eN (l1 ++ (e, d1 + d2) :: l2) o.deltaGx eigh (codeGuided normExact fs o) onlyG opt ks)
      (radSimIj ijExact o.deltaGx argsort eigh vecs (codeGuided normExact fs o) S gmax onlyG opt ks sigma numeig)
      (radSimIj ijExact o.deltaGx argsort eigh vecs (codeGuided normExact fs o) (S.cut L1 l L2 d1 d2) gmax onlyG opt ks sigma
        numeig) := by
  have hg := code_same fs fs o e0 eN e0 eN _ _ (by simp) h0 hN hl hfs (by simp) h0 hN
    (cut_mem.2 hl) (rootFinder_cut h0 hN (hl (e, d1 + d2) (by simp)) hfs) ho (S.gvec gmax) ks hsep (fun k hk pol hpol =>
      freqs_cut_layers fs o e0 eN e d1 d2 l1 l2 h12 pol _)
  exact ⟨C132_subdivision_frequencies argsort eigh he _ _ S gmax onlyG opt e0 eN e d1 d2 l1 l2 hd1 hd2 h0 hN
    (fun l h => (hl l h).ne') L1 L2 l hS hL1 hst ks o.deltaGx hg sigma numeig,
    C132_subdivision argsort hs eigh vecs he hp _ _ S gmax onlyG opt e0 eN e d1 d2 l1 l2 hd1 hd2 h0 hN
    (fun l h => (hl l h).ne') hclad L1 L2 l hS hL1 hL2 hst ks o.deltaGx hg sigma numeig⟩

/-- **C132 (finders).** A root finder of a slab serves the subdivided slab, and for one layer the slab upside down. -/
theorem C132_finders (fs : Finder) (e0 eN e d1 d2 : ℝ) (l1 l2 : List (ℝ × ℝ)) (h0 : 0 < e0) (hN : 0 < eN) (he : 0 < e) :
    (RootFinder fs e0 eN (l1 ++ (e, d1 + d2) :: l2) → RootFinder fs e0 eN (l1 ++ (e, d1) :: (e, d2) :: l2)) ∧
    ∀ l, RootFinder fs e0 eN [l] → RootFinder fs eN e0 [l] :=
  ⟨rootFinder_cut h0 hN he, fun _ => rootFinder_one_flip⟩

/-! ### The asymmetric slab -/

/-- The guided modes of the asymmetric slab: there is at most one at each wave vector near 2. -/
theorem asym_unique (g : ℝ) (hg : g ≤ 2) : ZerosApart 1 3 1 [(5, 7 * Real.pi / 12)] .te g := by
  intro x y hx hy zx zy hxy
  exfalso
  have hp := Real.pi_pos
  -- the three square roots
  have D : ∀ om, slabDisp 3 1 [(5, 7 * Real.pi / 12)] .te g om = √(-g ^ 2 + 5 * om ^ 2) * (√(g ^ 2 - 3 * om ^ 2) +
      √(g ^ 2 - 1 * om ^ 2)) * Real.cos (√(-g ^ 2 + 5 * om ^ 2) * (7 * Real.pi / 12)) -
      (√(-g ^ 2 + 5 * om ^ 2) ^ 2 - √(g ^ 2 - 3 * om ^ 2) * √(g ^ 2 - 1 * om ^ 2)) *
        Real.sin (√(-g ^ 2 + 5 * om ^ 2) * (7 * Real.pi / 12)) := fun om => te_disp om g 3 5 1 (7 * Real.pi / 12)
  have bounds : ∀ om, BetweenLines 3 1 [(5, 7 * Real.pi / 12)] g om → 3 * om ^ 2 < g ^ 2 ∧ g ^ 2 < 5 * om ^ 2 := by
    intro om h
    refine ⟨(h.clads (by norm_num)).1, ?_⟩
    have hc := h.core
    rw [omLb_single] at hc
    have hc' : g / √5 < om := lt_of_le_of_lt (by gcongr; exact le_max_left _ _) hc
    rw [div_lt_iff₀ (by positivity)] at hc'
    have hc2 : g ^ 2 < (om * √5) ^ 2 := by
      have := h.wave
      gcongr
    rw [mul_pow, Real.sq_sqrt (by norm_num)] at hc2
    linarith
  obtain ⟨x1, x2⟩ := bounds x hx
  obtain ⟨y1, y2⟩ := bounds y hy
  have hx0 := hx.pos
  have hsq : x ^ 2 < y ^ 2 := by gcongr
  have hg0 := hx.wave
  have hg4 : g ^ 2 ≤ 4 := by nlinarith
  rw [D] at zx zy
  have bx : 0 < √(-g ^ 2 + 5 * x ^ 2) := Real.sqrt_pos.2 (by linarith)
  have bxy : √(-g ^ 2 + 5 * x ^ 2) < √(-g ^ 2 + 5 * y ^ 2) := Real.sqrt_lt_sqrt (by linarith) (by linarith)
  have by1 : √(-g ^ 2 + 5 * y ^ 2) < 12 / 7 := by rw [Real.sqrt_lt' (by norm_num)]; linarith
  have ay : 0 < √(g ^ 2 - 3 * y ^ 2) := Real.sqrt_pos.2 (by linarith)
  have axy : √(g ^ 2 - 3 * y ^ 2) < √(g ^ 2 - 3 * x ^ 2) := Real.sqrt_lt_sqrt (by linarith) (by linarith)
  have cy : 0 < √(g ^ 2 - 1 * y ^ 2) := Real.sqrt_pos.2 (by nlinarith)
  have cxy : √(g ^ 2 - 1 * y ^ 2) < √(g ^ 2 - 1 * x ^ 2) := Real.sqrt_lt_sqrt (by nlinarith) (by linarith)
  generalize √(-g ^ 2 + 5 * x ^ 2) = b at *
  generalize √(-g ^ 2 + 5 * y ^ 2) = b' at *
  generalize √(g ^ 2 - 3 * x ^ 2) = a at *
  generalize √(g ^ 2 - 3 * y ^ 2) = a' at *
  generalize √(g ^ 2 - 1 * x ^ 2) = c at *
  generalize √(g ^ 2 - 1 * y ^ 2) = c' at *
  have s1 : 0 < Real.sin (b * (7 * Real.pi / 12)) := Real.sin_pos_of_pos_of_lt_pi (by positivity) (by nlinarith)
  have s2 : 0 < Real.sin (b' * (7 * Real.pi / 12)) :=
    Real.sin_pos_of_pos_of_lt_pi (mul_pos (bx.trans bxy) (by positivity)) (by nlinarith)
  have s3 : 0 < Real.sin (b' * (7 * Real.pi / 12) - b * (7 * Real.pi / 12)) :=
    Real.sin_pos_of_pos_of_lt_pi (by nlinarith) (by nlinarith [mul_pos bx hp])
  rw [Real.sin_sub] at s3
  generalize Real.sin (b * (7 * Real.pi / 12)) = S at *
  generalize Real.cos (b * (7 * Real.pi / 12)) = C at *
  generalize Real.sin (b' * (7 * Real.pi / 12)) = S' at *
  generalize Real.cos (b' * (7 * Real.pi / 12)) = C' at *
  have pb : 0 < b * (a + c) := by nlinarith [mul_pos bx (by linarith : (0 : ℝ) < a + c)]
  have pb' : 0 < b' * (a' + c') := mul_pos (bx.trans bxy) (by linarith)
  -- cot at x is (b²-ac)/(b(a+c)), and at y the same with primes
  have k1 : C = (b ^ 2 - a * c) * S / (b * (a + c)) := by rw [eq_div_iff pb.ne']; linarith
  have k2 : C' = (b' ^ 2 - a' * c') * S' / (b' * (a' + c')) := by rw [eq_div_iff pb'.ne']; linarith
  have k3 : (b ^ 2 - a * c) / (b * (a + c)) < (b' ^ 2 - a' * c') / (b' * (a' + c')) := by
    have e1 : (b ^ 2 - a * c) / (b * (a + c)) = b / (a + c) - a * c / (a + c) / b := by
      have : a + c ≠ 0 := by intro h; rw [h, mul_zero] at pb; exact lt_irrefl _ pb
      field_simp
    have e2 : (b' ^ 2 - a' * c') / (b' * (a' + c')) = b' / (a' + c') - a' * c' / (a' + c') / b' := by
      have : a' + c' ≠ 0 := by intro h; rw [h, mul_zero] at pb'; exact lt_irrefl _ pb'
      have : b' ≠ 0 := (bx.trans bxy).ne'
      field_simp
    have hb0 : 0 ≤ b' := (bx.trans bxy).le
    have p1 : b / (a + c) < b' / (a' + c') := by gcongr
    have p2 : a' * c' / (a' + c') / b' < a * c / (a + c) / b := by
      have q : a' * c' / (a' + c') < a * c / (a + c) := by
        have i1 : a' * c' / (a' + c') = (a'⁻¹ + c'⁻¹)⁻¹ := by field_simp; ring
        have ha : 0 < a := ay.trans axy
        have hc : 0 < c := cy.trans cxy
        have i2 : a * c / (a + c) = (a⁻¹ + c⁻¹)⁻¹ := by field_simp; ring
        rw [i1, i2]
        gcongr
      have : 0 < a' * c' / (a' + c') := by positivity
      have hb' : 0 < b' := bx.trans bxy
      calc a' * c' / (a' + c') / b' < a * c / (a + c) / b' := by gcongr
        _ ≤ a * c / (a + c) / b := by
          have : 0 < a * c / (a + c) := by linarith
          gcongr
    rw [e1, e2]
    linarith
  rw [k1, k2] at s3
  have : S' * ((b ^ 2 - a * c) * S / (b * (a + c))) - (b' ^ 2 - a' * c') * S' / (b' * (a' + c')) * S =
      S * S' * ((b ^ 2 - a * c) / (b * (a + c)) - (b' ^ 2 - a' * c') / (b' * (a' + c'))) := by ring
  rw [this] at s3
  have := mul_pos s1 s2
  nlinarith

theorem sampledAll_one (D : ℝ → ℝ → ℝ) (fs : ℝ → ℝ → ℝ → ℝ) (e0 eN : ℝ) (ls : List (ℝ × ℝ)) (e : ℝ) (he : 0 < e)
    (hls : ∀ l ∈ ls, l.1 = e) (hlb : ∀ g, omLb (e0 :: ls.map Prod.fst ++ [eN]) g = max g 1e-4 / √e)
    (n : ℕ) (step tol : ℝ) (ht : 0 < tol) :
    ∀ (grid : List ℝ) (prev : Option (ℝ × List ℝ)), (∀ g ∈ grid, (1e-4 : ℝ) ≤ g) →
    SampledAll (fun g om => ∀ l ∈ ls, l.1 * om ^ 2 ≠ g ^ 2) D fs (e0 :: ls.map Prod.fst ++ [eN]) n step tol prev grid
  | [], _, _ => trivial
  | g :: gs, prev, hmin => by
    have hg := hmin g List.mem_cons_self
    have hg0 : 0 < g := lt_of_lt_of_le (by norm_num) hg
    refine ⟨?_, sampledAll_one D fs e0 eN ls e he hls hlb n step tol ht gs _ fun x hx => hmin x (List.mem_cons_of_mem _ hx)⟩
    intro om _ hom l hl
    rw [hlb, max_eq_left hg] at hom
    rw [hls l hl]
    have hse := Real.sqrt_pos.2 he
    have h1 : g / √e < om := by nlinarith [div_pos hg0 hse]
    rw [div_lt_iff₀ hse] at h1
    have h2 : g ^ 2 < (om * √e) ^ 2 := by gcongr
    rw [mul_pow, Real.sq_sqrt he.le] at h2
    linarith

theorem asym_clear (fs : Finder) (grid : List ℝ) (h : ∀ g ∈ grid, g = 2) :
    ClearSearch fs asymOpts 3 1 [(5, 7 * Real.pi / 12)] grid := by
  refine ⟨fun pol hp g hg => ?_, fun pol hp => ?_⟩
  · cases pol with
    | te => exact asym_unique g (h g hg).le
    | tm => exact absurd (by simp [polInds, asymOpts, modePol]) hp
  · exact sampledAll_one _ _ 3 1 [(5, 7 * Real.pi / 12)] 5 (by norm_num) (by simp) (omLb_single 3 1 (5, 7 * Real.pi / 12)) _ _ _
      (by norm_num [asymOpts]) grid none fun g hg => by rw [h g hg]; norm_num

theorem asymPlain_waves : waveLengths asymOpts (asymPlain.gvec (1 / 2)) (0, 2) = [2] := by
  have h2 : √((2 : ℝ) ^ 2) = 2 := Real.sqrt_sq (by norm_num)
  rw [asymPlain_gvec]
  simp [waveLengths, planeAbs, radPlane, asymOpts, h2]

theorem asym_thirds : 7 * Real.pi / 12 = 7 * Real.pi / 36 + 7 * Real.pi / 18 := by ring

/-- The asymmetric slab cut at one third. -/
theorem asym_cut_waves (fs : Finder) (hfs : RootFinder fs 3 1 [(5, 7 * Real.pi / 12)]) (gk : List ℝ) (h : ∀ g ∈ gk, g = 2) :
    SeparateWaves fs asymOpts 3 1 [(5, 7 * Real.pi / 36), (5, 7 * Real.pi / 18)] gk ∧
    ClearSearch fs asymOpts 3 1 [(5, 7 * Real.pi / 36), (5, 7 * Real.pi / 18)] (gk.insertionSort (· ≤ ·)) := by
  have h1 := (asym_waves fs gk h).1
  have hgk : ∀ g ∈ gk.insertionSort (· ≤ ·), g = 2 := fun g hg => h g ((List.perm_insertionSort _ _).mem_iff.1 hg)
  have hmin : ∀ g ∈ gk.insertionSort (· ≤ ·), (1e-4 : ℝ) ≤ g := fun g hg => by rw [hgk g hg]; norm_num
  have h2 := asym_clear fs (gk.insertionSort (· ≤ ·)) hgk
  rw [asym_thirds] at hfs h1 h2
  have hcut := rootFinder_cut (d1 := 7 * Real.pi / 36) (d2 := 7 * Real.pi / 18) (l1 := []) (l2 := []) (by norm_num) one_pos
    (by norm_num) hfs
  have hf := freqs_cut fs fs asymOpts 3 1 5 (7 * Real.pi / 36) (7 * Real.pi / 18) [] [] (by norm_num) one_pos (by simp) hfs hcut
    asymOpts_exact.step (by norm_num [asymOpts]) asymOpts_exact.tol1 _ hmin h2
  have hlb := omLb_cut 3 1 5 (7 * Real.pi / 36) (7 * Real.pi / 18) [] []
  simp only [List.nil_append] at hf hlb
  refine ⟨⟨h1.min, h1.sep, fun pol hp => by rw [hf pol hp]; exact h1.count pol hp⟩, ⟨fun pol hp g hg x y hx hy zx zy hxy => ?_,
    fun pol hp => ?_⟩⟩
  · have hg4 : (1e-4 : ℝ) ≤ g := hmin g hg
    have tr : ∀ om, BetweenLines 3 1 [(5, 7 * Real.pi / 36), (5, 7 * Real.pi / 18)] g om →
        BetweenLines 3 1 [(5, 7 * Real.pi / 36 + 7 * Real.pi / 18)] g om := fun om q =>
      ⟨q.wave, q.pos, q.clad, by have := q.core; rwa [hlb] at this, fun l hl => by
        rw [List.mem_singleton.1 hl]; exact q.off (5, 7 * Real.pi / 36) (by simp)⟩
    obtain ⟨c, hc, e1⟩ := slabDisp_split (l1 := []) (l2 := []) (by norm_num) one_pos (by simp) pol hg4 (tr x hx)
    obtain ⟨c', hc', e2⟩ := slabDisp_split (l1 := []) (l2 := []) (by norm_num) one_pos (by simp) pol hg4 (tr y hy)
    simp only [List.nil_append] at e1 e2
    rw [e1] at zx
    rw [e2] at zy
    exact h2.apart pol hp g hg x y (tr x hx) (tr y hy) ((mul_eq_zero.1 zx).resolve_left hc.ne')
      ((mul_eq_zero.1 zy).resolve_left hc'.ne') hxy
  · exact sampledAll_one _ _ 3 1 _ 5 (by norm_num) (by simp) (fun g => (hlb g).trans (omLb_single 3 1 _ g)) _ _ _
      (by norm_num [asymOpts]) _ none hmin

/-- The asymmetric slab upside down. -/
example (argsort : List ℝ → List ℕ) (hs : ∀ l, IsArgsort l (argsort l)) : ∃ (fs : Finder) (eigh : _) (vecs : _),
    SortedEigh eigh ∧ EighPair eigh vecs ∧ asymPlain.turned.layers.map GmeLay.epsB = [1, 5, 3] ∧
    gmeSimIj ijExact argsort eigh (codeGuided normExact fs asymOpts) asymPlain.turned (1 / 2) false "average" [(0, 2)] 0 1 =
      gmeSimIj ijExact argsort eigh (codeGuided normExact fs asymOpts) asymPlain (1 / 2) false "average" [(0, 2)] 0 1 := by
  obtain ⟨fs, hfs⟩ := C118_finder 3 1 (5, 7 * Real.pi / 12) (by norm_num)
  obtain ⟨eigh, vecs, he, hp⟩ := sortedPair_exists
  refine ⟨fs, eigh, vecs, he, hp, rfl, (C132_run_slab argsort hs eigh vecs he hp fs asymOpts asymOpts_exact asymPlain (1 / 2) false
    "average" 3 1 (5, 7 * Real.pi / 12) (by positivity) (by norm_num) one_pos (by norm_num) hfs rfl (fun eff h => ?_) [(0, 2)]
    (fun k hk => ?_) 0 1).1⟩
  · cases h
    rfl
  · rw [List.mem_singleton.1 hk, asymPlain_waves]
    exact (asym_waves fs [2] (by simp)).1

/-- The asymmetric slab, written as two layers. -/
noncomputable def asymTwo : GmeStruct :=
  asymPlain.cut [⟨.lower, 3, 3, none, []⟩] ⟨.inner (7 * Real.pi / 12), 5, 5, none, []⟩ [⟨.upper, 1, 1, none, []⟩] (7 * Real.pi / 36)
    (7 * Real.pi / 18)

/-- The asymmetric slab against the two layers. -/
example (argsort : List ℝ → List ℕ) (hs : ∀ l, IsArgsort l (argsort l)) : ∃ (fs : Finder) (eigh : _) (vecs : _),
    SortedEigh eigh ∧ EighPair eigh vecs ∧
    gmeSimIj ijExact argsort eigh (codeGuided normExact fs asymOpts) asymTwo (1 / 2) false "average" [(0, 2)] 0 1 =
      gmeSimIj ijExact argsort eigh (codeGuided normExact fs asymOpts) asymPlain (1 / 2) false "average" [(0, 2)] 0 1 := by
  obtain ⟨fs, hfs⟩ := C118_finder 3 1 (5, 7 * Real.pi / 12) (by norm_num)
  obtain ⟨eigh, vecs, he, hp⟩ := sortedPair_exists
  have hw := (asym_waves fs [2] (by simp)).1
  have hc := asym_clear fs [2] (by simp)
  rw [asym_thirds] at hfs hw hc
  refine ⟨fs, eigh, vecs, he, hp, (C132_run_subdivision argsort hs eigh vecs he hp fs fs asymOpts asymOpts_exact
    (by norm_num [asymOpts]) asymPlain (1 / 2) false
    "average" 3 1 5 (7 * Real.pi / 36) (7 * Real.pi / 18) [] [] (by positivity) (by positivity) (by norm_num) one_pos (by simp) hfs
    (rootFinder_cut (l1 := []) (l2 := []) (by norm_num) one_pos (by norm_num) hfs) rfl _ _ _ rfl rfl (by simp)
    (fun eff h => ?_) [(0, 2)] (fun k hk => ?_) (fun k hk => ?_) 0 1).1⟩
  · rw [List.nil_append, ← asym_thirds]
    cases h
    rfl
  · rw [List.mem_singleton.1 hk, asymPlain_waves]
    exact hw
  · rw [List.mem_singleton.1 hk, asymPlain_waves]
    exact hc

/-- The two layers upside down, and with the second layer cut once more. -/
example (argsort : List ℝ → List ℕ) (hs : ∀ l, IsArgsort l (argsort l)) : ∃ (fs fs' : Finder) (S' : GmeStruct) (eigh : _) (vecs : _),
    SortedEigh eigh ∧ EighPair eigh vecs ∧
    asymTwo.turned.layers.map GmeLay.pos = [.lower, .inner (7 * Real.pi / 18), .inner (7 * Real.pi / 36), .upper] ∧
    gmeSimIj ijExact argsort eigh (codeGuided normExact fs' asymOpts) asymTwo.turned (1 / 2) false "average" [(0, 2)] 0 1 =
      gmeSimIj ijExact argsort eigh (codeGuided normExact fs asymOpts) asymTwo (1 / 2) false "average" [(0, 2)] 0 1 ∧
    S'.layers.map GmeLay.pos = [.lower, .inner (7 * Real.pi / 36), .inner (7 * Real.pi / 54), .inner (7 * Real.pi / 27), .upper] ∧
    gmeSimIj ijExact argsort eigh (codeGuided normExact fs asymOpts) S' (1 / 2) false "average" [(0, 2)] 0 1 =
      gmeSimIj ijExact argsort eigh (codeGuided normExact fs asymOpts) asymTwo (1 / 2) false "average" [(0, 2)] 0 1 := by
  obtain ⟨fs, hfs⟩ := C118_finder 3 1 (5, 7 * Real.pi / 12) (by norm_num)
  obtain ⟨eigh, vecs, he, hp⟩ := sortedPair_exists
  obtain ⟨hw, hc⟩ := asym_cut_waves fs hfs [2] (by simp)
  have hfl := rootFinder_one_flip hfs
  rw [asym_thirds] at hfs
  rw [asym_thirds, add_comm] at hfl
  have hcut := rootFinder_cut (l1 := []) (l2 := []) (by norm_num) one_pos (by norm_num) hfs
  have hcut' := rootFinder_cut (l1 := []) (l2 := []) one_pos (by norm_num) (by norm_num) hfl
  rw [List.nil_append] at hcut hcut'
  have hst : ∀ eff, asymTwo.layers.mapM (GmeLay.eff "average") = .ok eff → (asymTwo.layers.map GmeLay.pos).zip eff =
      slabStack 3 1 [(5, 7 * Real.pi / 36), (5, 7 * Real.pi / 18)] := by
    intro eff h
    cases h
    rfl
  have hwv : ∀ k ∈ [((0, 2) : R2)], waveLengths asymOpts (asymTwo.gvec (1 / 2)) k = [2] := by
    intro k hk
    rw [List.mem_singleton.1 hk]
    exact asymPlain_waves
  have e : 7 * Real.pi / 18 = 7 * Real.pi / 54 + 7 * Real.pi / 27 := by ring
  have h3 := (C132_run_layers argsort hs eigh vecs he hp fs asymOpts asymOpts_exact asymTwo (1 / 2) false
    "average" 3 1 5 (7 * Real.pi / 54) (7 * Real.pi / 27) [(5, 7 * Real.pi / 36)] [] (by simp) (by positivity) (by positivity)
    (by norm_num) one_pos (by simp) (by rw [← e]; exact hcut) rfl
    [⟨.lower, 3, 3, none, []⟩, ⟨.inner (7 * Real.pi / 36), 5, 5, none, []⟩] [⟨.upper, 1, 1, none, []⟩]
    ⟨.inner (7 * Real.pi / 18), 5, 5, none, []⟩ rfl rfl (by simp) (by rw [← e]; exact hst) [(0, 2)]
    (fun k hk => by rw [hwv k hk, ← e]; exact hw) 0 1).1
  exact ⟨fs, fs, _, eigh, vecs, he, hp, rfl, (C132_run argsort hs eigh vecs he hp fs fs asymOpts asymOpts_exact
    (by norm_num [asymOpts]) asymTwo (1 / 2) false "average" 3 1 [(5, 7 * Real.pi / 36), (5, 7 * Real.pi / 18)] (by simp)
    (by simp; constructor <;> positivity) (by norm_num) one_pos (by simp) hcut hcut' rfl hst [(0, 2)]
    (fun k hk => by rw [hwv k hk]; exact hw) (fun k hk => by rw [hwv k hk]; exact hc) 0 1).1, rfl, h3⟩

end Legume
