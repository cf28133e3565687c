import Verif.Props.C16_Bipole

/-!
# C16 — from the input of the user to the poles, and the layout of `dipole`
-/

namespace Verif.Props
open Verif.Utils Verif.Py Verif.Model

theorem maxPoles_ge (inp : List (List ℝ)) {l : List ℝ} (h : l ∈ inp) : l.length ≤ maxPoles inp := by
  unfold maxPoles
  have key : ∀ (L : List ℕ) (a : ℕ), a ≤ L.foldl max a ∧ ∀ b ∈ L, b ≤ L.foldl max a := by
    intro L
    induction L with
    | nil => intro a; exact ⟨le_refl _, by simp⟩
    | cons c t ih =>
      intro a
      obtain ⟨i1, i2⟩ := ih (max a c)
      simp only [List.foldl_cons]
      refine ⟨(le_max_left _ _).trans i1, fun b hb => ?_⟩
      rcases List.mem_cons.1 hb with rfl | hb
      · exact (le_max_right _ _).trans i1
      · exact i2 b hb
  exact (key _ 0).2 _ (List.mem_map_of_mem h)

/-- Every vector has one entry or one per pole. -/
def SizesOK (inp : List (List ℝ)) : Prop := ∀ l ∈ inp, l.length = 1 ∨ l.length = maxPoles inp

theorem expand_spec {v : List ℝ} {n : ℕ} (h : v.length = 1 ∨ v.length = n) :
    (expand v n).length = n ∧ ∀ k < n, (expand v n).getD k 0 = bc v k := by
  unfold expand
  by_cases hn : v.length = n
  · rw [if_neg (not_not.2 hn)]
    refine ⟨hn, fun k hk => ?_⟩
    unfold bc
    split_ifs with h1
    · obtain ⟨a, rfl⟩ := List.length_eq_one_iff.1 h1
      have : k = 0 := by simp at hn; omega
      subst this; rfl
    · rfl
  · rw [if_pos hn]
    have h1 : v.length = 1 := h.resolve_right hn
    refine ⟨by simp, fun k hk => ?_⟩
    unfold bc
    rw [if_pos h1, List.getD_eq_getElem _ _ (by simpa using hk), List.getElem_replicate]

theorem expand_bc {v : List ℝ} {n : ℕ} (h : v.length = 1 ∨ v.length = n) {k : ℕ} (hk : k < n) :
    bc (expand v n) k = bc v k := by
  obtain ⟨e1, e2⟩ := expand_spec h
  rw [← e2 k hk]
  unfold bc
  split_ifs with h1
  · have : k = 0 := by omega
    subst this
    obtain ⟨a, ha⟩ := List.length_eq_one_iff.1 h1
    rw [ha]; rfl
  · rfl

open Classical in
theorem chckDipole_ok {x y z : List ℝ} {n : ℕ} (hn : 0 < n) (hx : x.length = 1 ∨ x.length = n)
    (hy : y.length = 1 ∨ y.length = n) (hz : z.length = 1 ∨ z.length = n) :
    ∃ z', chckDipole x y z n = .ok (expand x n, expand y n, z') ∧
      (z'.length = 1 ∨ z'.length = n) ∧ ∀ k < n, |bc z' k - bc z k| ≤ 1e-8 := by
  have h0 : 0 < z.length := by rcases hz with h | h <;> omega
  obtain ⟨z0, t, rfl⟩ := List.exists_cons_of_length_pos h0
  refine ⟨if ∀ a ∈ z0 :: t, |a - z0| ≤ 1e-8 then [z0] else z0 :: t, ?_, ?_, ?_⟩
  · unfold chckDipole checkVar2
    rw [if_pos hx, if_pos hy, if_pos hz]
    rfl
  · split_ifs
    · exact Or.inl rfl
    · exact hz
  · intro k hk
    split_ifs with h
    · rw [bc_single, abs_sub_comm]
      exact h _ (bc_mem hz.symm hk)
    · rw [sub_self, abs_zero]; norm_num

theorem chckDipole_bad {x y z : List ℝ} {n : ℕ} (h : ¬ ((x.length = 1 ∨ x.length = n) ∧
    (y.length = 1 ∨ y.length = n) ∧ (z.length = 1 ∨ z.length = n))) :
    chckDipole x y z n = .error .valueError := by
  unfold chckDipole checkVar2
  by_cases hx : x.length = 1 ∨ x.length = n
  · by_cases hy : y.length = 1 ∨ y.length = n
    · have hz : ¬ (z.length = 1 ∨ z.length = n) := fun hz => h ⟨hx, hy, hz⟩
      rw [if_pos hx, if_pos hy, if_neg hz]; rfl
    · rw [if_pos hx, if_neg hy]; rfl
  · rw [if_neg hx]; rfl

/-- Angles: expanded only if the depths differ. -/
theorem angle_expand {a : List ℝ} {n nz : ℕ} (ha : a.length = 1 ∨ a.length = n)
    (hz : nz = 1 ∨ nz = n) (hn : 0 < n) :
    let a' := if nz > 1 ∧ a.length = 1 then List.replicate nz (a.headD 0) else a
    (a'.length = n ∨ (a'.length = 1 ∧ nz = 1)) ∧ ∀ k < n, bc a' k = bc a k := by
  intro a'
  by_cases h : nz > 1 ∧ a.length = 1
  · have e : a' = List.replicate nz (a.headD 0) := if_pos h
    have hnz : nz = n := by omega
    subst hnz
    refine ⟨Or.inl (by rw [e]; simp), fun k hk => ?_⟩
    rw [e]
    unfold bc
    rw [if_pos h.2, List.length_replicate, if_neg (by omega),
      List.getD_eq_getElem _ _ (by simpa using hk), List.getElem_replicate]
  · have e : a' = a := if_neg h
    rw [e]
    refine ⟨?_, fun _ _ => rfl⟩
    rcases ha with h1 | h1
    · by_cases hnz : nz = 1
      · exact Or.inr ⟨h1, hnz⟩
      · exact absurd ⟨by omega, h1⟩ h
    · exact Or.inl h1

theorem getD_bc {l : List ℝ} {n k : ℕ} (h : l.length = 1 ∨ l.length = n) :
    l.getD (if l.length = 1 then 0 else k) 0 = bc l k := by
  unfold bc
  split_ifs with h1
  · obtain ⟨a, rfl⟩ := List.length_eq_one_iff.1 h1
    rfl
  · rfl

/-- **C16, input as dipoles** `[x, y, z, azimuth, dip]`: accepted exactly if every vector has one entry
or one per pole (and there is at least one pole); pole `k` has the `k`-th coordinates and angles,
its depth up to the tolerance 1e-8 with which depths are regarded as equal. -/
theorem C16_poles_dipole (x y z a d : List ℝ) (hpos : 0 < maxPoles [x, y, z, a, d]) :
    (¬ SizesOK [x, y, z, a, d] → checkPoles [x, y, z, a, d] = .error .valueError) ∧
    (SizesOK [x, y, z, a, d] → ∃ p, checkPoles [x, y, z, a, d] = .ok p ∧ PolesOK p ∧
      p.isdipole = true ∧ p.n = maxPoles [x, y, z, a, d] ∧ ∀ k < p.n,
        p.x0 k = bc x k ∧ p.y0 k = bc y k ∧ |p.z0 (depthIndex p k) - bc z k| ≤ 1e-8 ∧
        bc p.azm k = bc a k ∧ bc p.dip k = bc d k) := by
  set n := maxPoles [x, y, z, a, d] with hn
  constructor
  · intro hbad
    unfold checkPoles
    simp only [← hn]
    by_cases hc : (x.length = 1 ∨ x.length = n) ∧ (y.length = 1 ∨ y.length = n) ∧
        (z.length = 1 ∨ z.length = n)
    · obtain ⟨z', e, -, -⟩ := chckDipole_ok hpos hc.1 hc.2.1 hc.2.2
      rw [e]
      by_cases ha : a.length = 1 ∨ a.length = n
      · have hd : ¬ (d.length = 1 ∨ d.length = n) := by
          intro hd
          apply hbad
          intro l hl
          simp only [List.mem_cons, List.not_mem_nil, or_false] at hl
          rcases hl with rfl | rfl | rfl | rfl | rfl
          · exact hc.1
          · exact hc.2.1
          · exact hc.2.2
          · exact ha
          · exact hd
        unfold checkVar2
        rw [if_pos ha, if_neg hd]; rfl
      · unfold checkVar2
        rw [if_neg ha]; rfl
    · rw [chckDipole_bad hc]; rfl
  · intro hok
    have hx := hok x (by simp)
    have hy := hok y (by simp)
    have hz := hok z (by simp)
    have ha := hok a (by simp)
    have hd := hok d (by simp)
    rw [← hn] at hx hy hz ha hd
    obtain ⟨z', e, z1, z2⟩ := chckDipole_ok hpos hx hy hz
    obtain ⟨x1, x2⟩ := expand_spec hx
    obtain ⟨y1, y2⟩ := expand_spec hy
    obtain ⟨a1, a2⟩ := angle_expand ha z1 hpos
    obtain ⟨d1, d2⟩ := angle_expand hd z1 hpos
    refine ⟨⟨true, (expand x n).length, z'.length, ((expand x n).getD · 0), ((expand x n).getD · 0),
      ((expand y n).getD · 0), ((expand y n).getD · 0), (z'.getD · 0), (z'.getD · 0),
      if z'.length > 1 ∧ a.length = 1 then List.replicate z'.length (a.headD 0) else a,
      if z'.length > 1 ∧ d.length = 1 then List.replicate z'.length (d.headD 0) else d⟩,
      ?_, ?_, rfl, x1, ?_⟩
    · unfold checkPoles
      simp only [← hn]
      rw [e]
      unfold checkVar2
      rw [if_pos ha, if_pos hd]; rfl
    · constructor
      · show 0 < (expand x n).length
        rw [x1]; exact hpos
      · show z'.length = 1 ∨ z'.length = (expand x n).length
        rw [x1]; exact z1
      · intro _
        show _ = (expand x n).length ∨ _
        rw [x1]; exact a1
      · intro _
        show _ = (expand x n).length ∨ _
        rw [x1]; exact d1
      · intro h; exact absurd h (by simp)
    · intro k hk
      have hk' : k < n := by rw [← x1]; exact hk
      refine ⟨x2 k hk', y2 k hk', ?_, a2 k hk', d2 k hk'⟩
      show |z'.getD (if z'.length = 1 then 0 else k) 0 - bc z k| ≤ 1e-8
      rw [getD_bc z1]
      exact z2 k hk'

/-- Depths of finite dipoles: expanded if those of the other end differ. -/
theorem depth_expand {z w : List ℝ} {n : ℕ} (hz : z.length = 1 ∨ z.length = n)
    (hn : 0 < n) :
    let c := decide (n > 1 ∧ (z.length > 1 ∨ w.length > 1))
    let z' := if c = true ∧ z.length = 1 then List.replicate n (z.headD 0) else z
    (z'.length = if c = true then n else 1) ∧ ∀ k < n, bc z' k = bc z k := by
  intro c z'
  by_cases hc : c = true
  · have hc' : n > 1 ∧ (z.length > 1 ∨ w.length > 1) := by simpa [c] using hc
    by_cases h1 : z.length = 1
    · have e : z' = List.replicate n (z.headD 0) := if_pos ⟨hc, h1⟩
      rw [e, if_pos hc]
      refine ⟨by simp, fun k hk => ?_⟩
      unfold bc
      rw [if_pos h1, List.length_replicate, if_neg (by omega),
        List.getD_eq_getElem _ _ (by simpa using hk), List.getElem_replicate]
    · have e : z' = z := if_neg (fun h => h1 h.2)
      rw [e, if_pos hc]
      exact ⟨hz.resolve_left h1, fun _ _ => rfl⟩
  · have e : z' = z := if_neg (fun h => hc h.1)
    rw [e, if_neg hc]
    refine ⟨?_, fun _ _ => rfl⟩
    have hc' : ¬ (n > 1 ∧ (z.length > 1 ∨ w.length > 1)) := by simpa [c] using hc
    rcases hz with h | h
    · exact h
    · by_contra h1
      exact hc' ⟨by omega, Or.inl (by omega)⟩

/-- **C16, input as finite dipoles** `[x0, x1, y0, y1, z0, z1]`: wrong sizes are rejected; otherwise the
input is accepted and pole `k` has the `k`-th end points (depths up to 1e-8) and is not a point, or it
is rejected, and then the end points of some pole coincide (depths up to 2e-8). -/
theorem C16_poles_finite (x0 x1 y0 y1 z0 z1 : List ℝ)
    (hpos : 0 < maxPoles [x0, x1, y0, y1, z0, z1]) :
    (¬ SizesOK [x0, x1, y0, y1, z0, z1] →
      checkPoles [x0, x1, y0, y1, z0, z1] = .error .valueError) ∧
    (SizesOK [x0, x1, y0, y1, z0, z1] →
      (checkPoles [x0, x1, y0, y1, z0, z1] = .error .valueError ∧
        ∃ k < maxPoles [x0, x1, y0, y1, z0, z1], bc x0 k = bc x1 k ∧ bc y0 k = bc y1 k ∧
          |bc z0 k - bc z1 k| ≤ 2e-8) ∨
      ∃ p, checkPoles [x0, x1, y0, y1, z0, z1] = .ok p ∧ PolesOK p ∧
        p.isdipole = false ∧ p.n = maxPoles [x0, x1, y0, y1, z0, z1] ∧ ∀ k < p.n,
          p.x0 k = bc x0 k ∧ p.x1 k = bc x1 k ∧ p.y0 k = bc y0 k ∧ p.y1 k = bc y1 k ∧
          |p.z0 (depthIndex p k) - bc z0 k| ≤ 1e-8 ∧ |p.z1 (depthIndex p k) - bc z1 k| ≤ 1e-8) := by
  set n := maxPoles [x0, x1, y0, y1, z0, z1] with hn
  constructor
  · intro hbad
    unfold checkPoles
    simp only [← hn]
    by_cases hc : (x0.length = 1 ∨ x0.length = n) ∧ (y0.length = 1 ∨ y0.length = n) ∧
        (z0.length = 1 ∨ z0.length = n)
    · obtain ⟨z', e, -, -⟩ := chckDipole_ok hpos hc.1 hc.2.1 hc.2.2
      rw [e]
      have hc' : ¬ ((x1.length = 1 ∨ x1.length = n) ∧ (y1.length = 1 ∨ y1.length = n) ∧
          (z1.length = 1 ∨ z1.length = n)) := by
        intro hd
        apply hbad
        intro l hl
        simp only [List.mem_cons, List.not_mem_nil, or_false] at hl
        rcases hl with rfl | rfl | rfl | rfl | rfl | rfl
        · exact hc.1
        · exact hd.1
        · exact hc.2.1
        · exact hd.2.1
        · exact hc.2.2
        · exact hd.2.2
      rw [chckDipole_bad hc']; rfl
    · rw [chckDipole_bad hc]; rfl
  · intro hok
    have hx0 := hok x0 (by simp)
    have hy0 := hok y0 (by simp)
    have hz0 := hok z0 (by simp)
    have hx1 := hok x1 (by simp)
    have hy1 := hok y1 (by simp)
    have hz1 := hok z1 (by simp)
    rw [← hn] at hx0 hy0 hz0 hx1 hy1 hz1
    obtain ⟨w0, e0, l0, m0⟩ := chckDipole_ok hpos hx0 hy0 hz0
    obtain ⟨w1, e1, l1, m1⟩ := chckDipole_ok hpos hx1 hy1 hz1
    obtain ⟨p1, p2⟩ := expand_spec hx0
    obtain ⟨q1, q2⟩ := expand_spec hy0
    obtain ⟨r1, r2⟩ := expand_spec hx1
    obtain ⟨s1, s2⟩ := expand_spec hy1
    obtain ⟨u1, u2⟩ := depth_expand (w := w1) l0 hpos
    obtain ⟨v1, v2⟩ := depth_expand (w := w0) l1 hpos
    have hcomm : decide (n > 1 ∧ (w1.length > 1 ∨ w0.length > 1)) =
        decide (n > 1 ∧ (w0.length > 1 ∨ w1.length > 1)) := by
      rw [decide_eq_decide, or_comm]
    rw [hcomm] at v1 v2
    generalize hW0 : (if decide (n > 1 ∧ (w0.length > 1 ∨ w1.length > 1)) = true ∧ w0.length = 1 then
      List.replicate n (w0.headD 0) else w0) = W0 at u1 u2
    generalize hW1 : (if decide (n > 1 ∧ (w0.length > 1 ∨ w1.length > 1)) = true ∧ w1.length = 1 then
      List.replicate n (w1.headD 0) else w1) = W1 at v1 v2
    have hlen : W0.length = W1.length := by rw [u1, v1]
    have hW : W0.length = 1 ∨ W0.length = n := by rw [u1]; split_ifs <;> simp
    have hW' : W1.length = 1 ∨ W1.length = n := by rw [← hlen]; exact hW
    have hval : checkPoles [x0, x1, y0, y1, z0, z1] =
        if ∀ k < n, bc (expand x0 n) k ≠ bc (expand x1 n) k ∨ bc (expand y0 n) k ≠ bc (expand y1 n) k ∨
          bc W0 k ≠ bc W1 k then
        .ok ⟨false, (expand x0 n).length, W0.length, ((expand x0 n).getD · 0),
          ((expand x1 n).getD · 0), ((expand y0 n).getD · 0), ((expand y1 n).getD · 0),
          (W0.getD · 0), (W1.getD · 0), [], []⟩
        else .error .valueError := by
      unfold checkPoles
      simp only [← hn]
      rw [e0, e1]
      show (if _ then _ else _) = _
      rw [hW0, hW1]
    by_cases hc : ∀ k < n, bc (expand x0 n) k ≠ bc (expand x1 n) k ∨
        bc (expand y0 n) k ≠ bc (expand y1 n) k ∨ bc W0 k ≠ bc W1 k
    · right
      refine ⟨_, by rw [hval, if_pos hc], ?_, rfl, p1, ?_⟩
      · constructor
        · show 0 < (expand x0 n).length
          rw [p1]; exact hpos
        · show W0.length = 1 ∨ W0.length = (expand x0 n).length
          rw [p1]; exact hW
        · intro h; exact absurd h (by simp)
        · intro h; exact absurd h (by simp)
        · intro _ k hk
          have hk' : k < n := by rw [← p1]; exact hk
          have := hc k hk'
          rw [expand_bc hx0 hk', expand_bc hx1 hk', expand_bc hy0 hk', expand_bc hy1 hk'] at this
          show (expand x1 n).getD k 0 - (expand x0 n).getD k 0 ≠ 0 ∨
            (expand y1 n).getD k 0 - (expand y0 n).getD k 0 ≠ 0 ∨
            W1.getD (if W0.length = 1 then 0 else k) 0 - W0.getD (if W0.length = 1 then 0 else k) 0 ≠ 0
          rw [p2 k hk', q2 k hk', r2 k hk', s2 k hk', getD_bc hW, hlen, getD_bc hW', sub_ne_zero,
            sub_ne_zero, sub_ne_zero]
          exact this.imp Ne.symm (Or.imp Ne.symm Ne.symm)
      · intro k hk
        have hk' : k < n := by rw [← p1]; exact hk
        refine ⟨p2 k hk', r2 k hk', q2 k hk', s2 k hk', ?_, ?_⟩
        · show |W0.getD (if W0.length = 1 then 0 else k) 0 - bc z0 k| ≤ 1e-8
          rw [getD_bc hW, u2 k hk']; exact m0 k hk'
        · show |W1.getD (if W0.length = 1 then 0 else k) 0 - bc z1 k| ≤ 1e-8
          rw [hlen, getD_bc hW', v2 k hk']; exact m1 k hk'
    · left
      refine ⟨by rw [hval, if_neg hc], ?_⟩
      push Not at hc
      obtain ⟨k, hk, c1, c2, c3⟩ := hc
      rw [expand_bc hx0 hk, expand_bc hx1 hk] at c1
      rw [expand_bc hy0 hk, expand_bc hy1 hk] at c2
      rw [u2 k hk, v2 k hk] at c3
      refine ⟨k, hk, c1, c2, ?_⟩
      have a0 := abs_le.1 (m0 k hk)
      have a1 := abs_le.1 (m1 k hk)
      rw [abs_le]
      constructor <;> linarith [a0.1, a0.2, a1.1, a1.2]

/-- Neither five nor six vectors: rejected. -/
theorem C16_poles_length {inp : List (List ℝ)} (h : inp.length ≠ 5 ∧ inp.length ≠ 6) :
    checkPoles inp = .error .valueError := by
  unfold checkPoles
  match inp, h with
  | [], _ => rfl
  | [_], _ => rfl
  | [_, _], _ => rfl
  | [_, _, _], _ => rfl
  | [_, _, _, _], _ => rfl
  | [_, _, _, _, _], h => exact absurd rfl h.1
  | [_, _, _, _, _, _], h => exact absurd rfl h.2
  | _ :: _ :: _ :: _ :: _ :: _ :: _ :: _, _ => rfl

/-- **C16, `dipole`.**  Entry `[r, s]` is the response for the offset and angle between source `s` and
receiver `r`; a coordinate given once is that of all dipoles. -/
theorem C16_dipole (S : Setup) (ab : ℕ) {sx sy sz rx ry rz : List ℝ} {src rec : List ℝ × List ℝ × ℝ}
    (h1 : checkDipole [sx, sy, sz] = .ok src) (h2 : checkDipole [rx, ry, rz] = .ok rec)
    {g : ℕ → ℝ → ℝ → ℝ → ℝ → ℕ → ℕ → ℂ}
    (hg : ∀ ab offs zs zr ls lr k (hk : k < offs.length),
      S.fem ab offs zs zr ls lr k = g ab offs[k].1 offs[k].2 zs zr ls lr)
    {s r : ℕ} (h3 : s < src.1.length) (h4 : r < rec.1.length) :
    ∃ zs zr, sz = [zs] ∧ rz = [zr] ∧ dipoleOut S ab src rec r s =
      g ab (max (Real.sqrt ((bc rx r - bc sx s) ^ 2 + (bc ry r - bc sy s) ^ 2)) S.m.minOff)
        (Complex.arg ⟨bc rx r - bc sx s, bc ry r - bc sy s⟩) zs zr (layerOf S.depth zs)
        (layerOf S.depth zr) := by
  have key : ∀ {x y z : List ℝ} {p : List ℝ × List ℝ × ℝ}, checkDipole [x, y, z] = .ok p →
      z = [p.2.2] ∧ ∀ k < p.1.length, p.1.getD k 0 = bc x k ∧ p.2.1.getD k 0 = bc y k := by
    intro x y z p h
    have hrep : ∀ {l : List ℝ} {n k : ℕ}, l.length = 1 → k < n →
        (List.replicate n (l.headD 0)).getD k 0 = bc l k := by
      intro l n k hl hk
      unfold bc
      rw [if_pos hl, List.getD_eq_getElem _ _ (by simpa using hk), List.getElem_replicate]
    have hsame : ∀ {l : List ℝ} {k : ℕ}, k < l.length → l.getD k 0 = bc l k := by
      intro l k hk
      unfold bc
      split_ifs with hl
      · obtain ⟨a, rfl⟩ := List.length_eq_one_iff.1 hl
        have : k = 0 := by simpa using hk
        subst this; rfl
      · rfl
    have hz : ∀ {q : List ℝ × List ℝ}, oneDepth z q = .ok p → z = [p.2.2] ∧ p.1 = q.1 ∧ p.2.1 = q.2 := by
      intro q hq
      match z, hq with
      | [], hq => cases hq
      | [a], hq => cases hq; exact ⟨rfl, rfl, rfl⟩
      | _ :: _ :: _, hq => cases hq
    unfold checkDipole expandXY at h
    simp only at h
    by_cases c1 : x.length ≠ y.length
    · rw [if_pos c1] at h
      by_cases c2 : x.length = 1
      · rw [if_pos c2] at h
        obtain ⟨z1, z2, z3⟩ := hz (q := (List.replicate y.length (x.headD 0), y)) h
        refine ⟨z1, fun k hk => ?_⟩
        rw [z2] at hk ⊢; rw [z3]
        simp only [List.length_replicate] at hk
        exact ⟨hrep c2 hk, hsame hk⟩
      · rw [if_neg c2] at h
        by_cases c3 : y.length = 1
        · rw [if_pos c3] at h
          obtain ⟨z1, z2, z3⟩ := hz (q := (x, List.replicate x.length (y.headD 0))) h
          refine ⟨z1, fun k hk => ?_⟩
          rw [z2] at hk ⊢; rw [z3]
          exact ⟨hsame hk, hrep c3 hk⟩
        · rw [if_neg c3] at h; cases h
    · rw [if_neg c1] at h
      obtain ⟨z1, z2, z3⟩ := hz (q := (x, y)) h
      push Not at c1
      refine ⟨z1, fun k hk => ?_⟩
      rw [z2] at hk ⊢; rw [z3]
      exact ⟨hsame hk, hsame (by rw [← c1]; exact hk)⟩
  obtain ⟨a1, a2⟩ := key h1
  obtain ⟨b1, b2⟩ := key h2
  refine ⟨src.2.2, rec.2.2, a1, b1, ?_⟩
  unfold dipoleOut
  dsimp only
  have hk : r + rec.1.length * s < src.1.length * rec.1.length := by
    calc _ < rec.1.length * (s + 1) := by rw [Nat.mul_succ]; omega
      _ ≤ rec.1.length * src.1.length := Nat.mul_le_mul_left _ h3
      _ = _ := Nat.mul_comm _ _
  rw [hg _ _ _ _ _ _ _ (by simpa using hk)]
  simp only [List.getElem_map, List.getElem_range]
  rw [show r + rec.1.length * s = s * rec.1.length + r by ring]
  obtain ⟨o1, o2⟩ := off_ang_eq S.m (src.1.getD · 0) (src.2.1.getD · 0) (rec.1.getD · 0)
    (rec.2.1.getD · 0) src.1.length rec.1.length S.junk S.junk h3 h4
  rw [o1, o2, (a2 s h3).1, (a2 s h3).2, (b2 r h4).1, (b2 r h4).2]

/-- Two receivers with different depths and a common azimuth: the azimuth is expanded. -/
example : ∃ p, checkPoles [[0, 10], [0], [100, 200], [30], [0]] = .ok p ∧ PolesOK p ∧ p.n = 2 ∧
    p.x0 1 = 10 ∧ p.y0 1 = 0 ∧ bc p.azm 1 = 30 := by
  have hm : maxPoles [[(0 : ℝ), 10], [0], [100, 200], [30], [0]] = 2 := by simp [maxPoles]
  obtain ⟨p, e, ok, -, hn, h⟩ := (C16_poles_dipole [0, 10] [0] [100, 200] [30] [0]
    (by rw [hm]; norm_num)).2 (by intro l hl; rw [hm]; simp only [List.mem_cons, List.not_mem_nil, or_false] at hl; rcases hl with rfl | rfl | rfl | rfl | rfl <;> simp)
  rw [hm] at hn
  obtain ⟨q1, q2, -, q4, -⟩ := h 1 (by omega)
  exact ⟨p, e, ok, hn, by rw [q1]; simp [bc], by rw [q2]; simp [bc], by rw [q4]; simp [bc]⟩

/-- Two sources at one depth and three receivers at three depths (the code loops over the receivers
only): every entry is the pair response. -/
example (S : Setup) (hm : S.m = Mins.init) {g : ℕ → ℝ → ℝ → ℝ → ℝ → ℕ → ℕ → ℂ}
    (hg : ∀ ab offs zs zr ls lr k (hk : k < offs.length),
      S.fem ab offs zs zr ls lr k = g ab offs[k].1 offs[k].2 zs zr ls lr) :
    ∃ src rec, checkPoles [[0, 50], [0], [10], [0, 90], [0]] = .ok src ∧
      checkPoles [[100, 200, 300], [7], [1, 2, 3], [45], [5]] = .ok rec ∧
      ∀ r < 3, ∀ s < 2, ∃ W, bipoleOut S src rec 1 1 r s = pairResponse S g
        (alone S.e src s 1 S.strength true) (alone S.e rec r 1 S.strength false) W := by
  have h1 : maxPoles [[(0 : ℝ), 50], [0], [10], [0, 90], [0]] = 2 := by simp [maxPoles]
  have h2 : maxPoles [[(100 : ℝ), 200, 300], [7], [1, 2, 3], [45], [5]] = 3 := by simp [maxPoles]
  obtain ⟨p, e, ok, -, hn, -⟩ := (C16_poles_dipole [0, 50] [0] [10] [0, 90] [0]
    (by rw [h1]; norm_num)).2 (by
      intro l hl; rw [h1]; simp only [List.mem_cons, List.not_mem_nil, or_false] at hl; rcases hl with rfl | rfl | rfl | rfl | rfl <;> simp)
  obtain ⟨q, e', ok', -, hn', -⟩ := (C16_poles_dipole [100, 200, 300] [7] [1, 2, 3] [45] [5]
    (by rw [h2]; norm_num)).2 (by
      intro l hl; rw [h2]; simp only [List.mem_cons, List.not_mem_nil, or_false] at hl; rcases hl with rfl | rfl | rfl | rfl | rfl <;> simp)
  rw [h1] at hn; rw [h2] at hn'
  refine ⟨p, q, e, e', fun r hr s hs => ?_⟩
  obtain ⟨W, -, hW⟩ := C16_bipole S (by rw [hm]; norm_num [Mins.init]) ok ok' 1 1 hg (s := s) (r := r)
    (by omega) (by omega)
  exact ⟨W, hW⟩

/-- **C16, squeeze**: the shape loses exactly the dimensions of length one, and the element at the
indices of the remaining dimensions is the element of the original array. -/
theorem C16_squeeze (a : NdArray) (idx : List ℕ) (hl : idx.length = a.shape.length)
    (hlt : ∀ p ∈ a.shape.zip idx, p.2 < p.1) :
    a.squeeze.shape = a.shape.filter (· ≠ 1) ∧
    a.squeeze.get (((a.shape.zip idx).filter (fun p => p.1 ≠ 1)).map Prod.snd) = a.get idx := by
  refine ⟨rfl, ?_⟩
  unfold NdArray.get NdArray.squeeze
  simp only
  congr 1
  have hz : ∀ (sh idx : List ℕ), idx.length = sh.length →
      (sh.filter (· ≠ 1)).zip (((sh.zip idx).filter (fun p => p.1 ≠ 1)).map Prod.snd) =
        (sh.zip idx).filter (fun p => p.1 ≠ 1) := by
    intro sh
    induction sh with
    | nil => intro idx _; simp
    | cons d t ih =>
      intro idx hidx
      match idx, hidx with
      | i :: u, hidx =>
        have := ih u (by simpa using hidx)
        by_cases h : d = 1
        · simpa [h] using this
        · simpa [h] using this
  rw [hz _ _ hl]
  have hf : ∀ (L : List (ℕ × ℕ)) (acc : ℕ), (∀ p ∈ L, p.2 < p.1) →
      (L.filter (fun p => p.1 ≠ 1)).foldl (fun acc p => acc * p.1 + p.2) acc =
        L.foldl (fun acc p => acc * p.1 + p.2) acc := by
    intro L
    induction L with
    | nil => intro _ _; rfl
    | cons p t ih =>
      intro acc h
      have ht : ∀ q ∈ t, q.2 < q.1 := fun q hq => h q (List.mem_cons_of_mem _ hq)
      by_cases h1 : p.1 = 1
      · have h2 : p.2 = 0 := by have := h p (by simp); omega
        simp only [List.filter_cons, h1, ne_eq, not_true, decide_false, Bool.false_eq_true, if_false,
          List.foldl_cons, h2, mul_one, add_zero]
        exact ih acc ht
      · simp only [List.filter_cons, ne_eq, h1, not_false_eq_true, decide_true, if_true,
          List.foldl_cons]
        exact ih _ ht
  exact hf _ 0 hlt

/-- Shape (1, 3, 1, 2) becomes (3, 2). -/
example (d : ℕ → ℂ) : (NdArray.squeeze ⟨[1, 3, 1, 2], d⟩).get [2, 1] = d 5 ∧
    (NdArray.squeeze ⟨[1, 3, 1, 2], d⟩).shape = [3, 2] := by
  constructor <;> simp [NdArray.get, NdArray.squeeze]

end Verif.Props
