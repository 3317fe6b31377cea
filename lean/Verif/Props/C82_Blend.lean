import Verif.Props.C82_Material
/-
  C82: what the path tracer requires of materials is met by marginalized mixtures (material::constant_weight_mixture_marginalized).
-/
namespace LM.Transport
open MeasureTheory LM LM.Surface LM.Material LM.Light LM.MathF LM.Path LM.Render LM.Solid Set
open scoped ENNReal

theorem groupEval_at {grp : List Entry} {g : Geom} {wi wo : V3 ℝ} {dir : TransDir} {ed : Bool} {F : Entry → V3 ℝ} (h : ∀ e ∈ grp, e.1.eval g wi wo 0 dir ed = some (F e)) :
    groupEval grp g wi wo dir ed = some (grp.map fun e => e.2 • F e).sum := by
  unfold groupEval
  rw [mapM_eq_map grp _ (fun e => e.2 • F e) fun e he => by rw [h e he]; rfl]
  rfl

theorem groupPdf_at {grp : List Entry} {g : Geom} {wi wo : V3 ℝ} {ed : Bool} {P : Entry → ℝ} (hpos : 0 < (grp.map (·.2)).sum) (h : ∀ e ∈ grp, e.1.pdfDirection g wi wo 0 ed = some (P e)) :
    groupPdf grp g wi wo ed = some (grp.map fun e => e.2 / (grp.map (·.2)).sum * P e).sum := by
  obtain ⟨c, hcd, hpmf, _⟩ := Dist.C28_pmf (grp.map (·.2)) hpos.ne'
  rw [← distOf_eq] at hcd
  unfold groupPdf
  rw [hcd]
  simp only
  have e : ∀ q ∈ grp.zipIdx, (q.1.1.pdfDirection g wi wo 0 ed).map (fun p => Dist.pmf c q.2 * p) = some (q.1.2 / (grp.map (·.2)).sum * P q.1) := fun q hq => by
    rw [h q.1 (List.fst_mem_of_mem_zipIdx hq), Option.map_some]
    have hi := List.mem_zipIdx' hq
    have := hpmf q.2 (by simpa using hi.1)
    rw [this, List.getElem_map, ← hi.2]
  rw [mapM_eq_map _ _ (fun q : Entry × Nat => q.1.2 / (grp.map (·.2)).sum * P q.1) e, Option.map_some]
  congr 2
  have : (fun q : Entry × Nat => q.1.2 / (grp.map (·.2)).sum * P q.1) = (fun e : Entry => e.2 / (grp.map (·.2)).sum * P e) ∘ Prod.fst := rfl
  rw [this, ← List.map_map, List.zipIdx_map_fst]

theorem measurable_sum1 {α ι : Type} [MeasurableSpace α] (l : List ι) (F : ι → α → ℝ) (h : ∀ e ∈ l, Measurable (F e)) : Measurable fun d => (l.map fun e => F e d).sum := by
  induction l with
  | nil => exact measurable_const
  | cons e l ih => simp only [List.map_cons, List.sum_cons]; exact (h e (by simp)).add (ih fun x hx => h x (by simp [hx]))

theorem nonneg_sum {ι : Type} (l : List ι) (F : ι → V3 ℝ) (h : ∀ e ∈ l, NonNeg (F e)) : NonNeg (l.map F).sum := by
  induction l with
  | nil => exact ⟨le_rfl, le_rfl, le_rfl⟩
  | cons e l ih =>
    rw [List.map_cons, List.sum_cons]
    obtain ⟨a, b, c⟩ := h e (by simp)
    obtain ⟨a', b', c'⟩ := ih fun x hx => h x (by simp [hx])
    exact ⟨add_nonneg a a', add_nonneg b b', add_nonneg c c'⟩

/-- The group of the entries that scatter with a BSDF. -/
theorem marg_smooth (es : List Entry) (g : Geom) (wi : V3 ℝ) (hnn : ∀ e ∈ es, 0 ≤ e.2) (hs : 0 < (es.map (·.2)).sum) (grp : List Entry) (hg : (groups es)[0]? = some grp) (hgn : ∀ e ∈ grp, 0 ≤ e.2) (hpos : 0 < (grp.map (·.2)).sum)
    (he : ∀ e ∈ grp, FreeDensity e.1 0 g wi ∧ Smooth e.1 0 g wi ∧ MeasurableEval e.1 0 g wi) : Smooth (mixtureMarg es) 0 g wi ∧ MaterialDensity (mixtureMarg es) 0 g wi := by
  classical
  have hcov : ∀ e ∈ grp, Covers e.1 0 g wi := fun e h => (he e h).2.1.covers
  have hdef : ∀ e ∈ grp, EstimatesAt e.1 0 g wi ∧ Defined e.1 0 g wi := fun e h => ⟨(he e h).2.1.estimates, fun wo hu => by
    refine ⟨?_, fun dir => ?_⟩
    · obtain ⟨P, F, h1, h2, h3, h4⟩ := hcov e h .LE wo hu; exact ⟨P, h1, h3⟩
    · obtain ⟨P, F, h1, h2, h3, h4⟩ := hcov e h dir wo hu; exact ⟨F, h2⟩⟩
  refine ⟨⟨by simp [mixtureMarg], C81_mixture_marginalized_partial es g wi hnn hs 0 grp hg hpos (fun e h => (he e h).2.1.estimates) (fun e h => (he e h).1) hcov fun e h => (he e h).2.2,
    (C45_mixture_marginalized es g wi hnn hs).2 0 grp hg hpos hdef, fun dir wo hu => ?_, ?_, ?_⟩, C80_mixture_marginalized_partial es g wi hnn hs 0 grp hg hpos hdef fun e h => (he e h).1⟩
  · choose! P F hP hF h0 hz using fun e h => hcov e h dir wo hu
    refine ⟨_, _, by simp only [mixtureMarg, hg, Option.bind_some]; exact groupPdf_at hpos hP, by simp only [mixtureMarg, hg, Option.bind_some]; exact groupEval_at hF, ?_, fun hzero => ?_⟩
    · exact List.sum_nonneg fun x hx => by
        obtain ⟨e, h, rfl⟩ := List.mem_map.mp hx
        exact mul_nonneg (div_nonneg (hgn e h) hpos.le) (h0 e h)
    · refine List.sum_eq_zero fun x hx => ?_
      obtain ⟨e, h, rfl⟩ := List.mem_map.mp hx
      have hall : ∀ y ∈ grp.map fun e => e.2 / (grp.map (·.2)).sum * P e, 0 ≤ y := fun y hy => by
        obtain ⟨e, h, rfl⟩ := List.mem_map.mp hy
        exact mul_nonneg (div_nonneg (hgn e h) hpos.le) (h0 e h)
      have hle := List.single_le_sum hall _ (List.mem_map_of_mem h)
      rw [hzero] at hle
      have hq := le_antisymm hle (hall _ (List.mem_map_of_mem h))
      rcases mul_eq_zero.mp hq with hq | hq
      · rcases div_eq_zero_iff.mp hq with hq | hq
        · rw [hq, zero_smul]
        · exact absurd hq hpos.ne'
      · rw [hz e h hq, smul_zero]
  · choose! F hF hFe using fun e h => (he e h).2.1.eval
    refine ⟨fun d => (grp.map fun e => e.2 • F e d).sum, measurable_sum3 grp _ fun e h => measurable_smul3 measurable_const (hF e h), fun d hd => ⟨nonneg_sum _ _ fun e h => nonneg_smul (hgn e h) (hFe e h d hd).1, fun ed => ?_⟩⟩
    simp only [mixtureMarg, hg, Option.bind_some]
    exact groupEval_at (F := fun e => F e d) fun e h => (hFe e h d hd).2 ed
  · choose! P hP hPe using fun e h => (he e h).2.1.pdf
    refine ⟨fun d => (grp.map fun e => e.2 / (grp.map (·.2)).sum * P e d).sum, measurable_sum1 grp _ fun e h => measurable_const.mul (hP e h), fun d hd ed => ?_⟩
    simp only [mixtureMarg, hg, Option.bind_some]
    exact groupPdf_at hpos (P := fun e => P e d) fun e h => hPe e h d hd ed

/-- Of one entry, this is selected. -/
theorem sample_one {w : ℝ} (h : w ≠ 0) (u : ℝ) : (distOf [w]).bind (fun d => Dist.sample d u) = some 0 := by
  have e : distOf [w] = some [0 / w, w / w] := by simp [distOf, Dist.addAll, Dist.empty, Dist.add, Dist.back, Dist.norm, h]
  rw [e, Option.bind_some]
  unfold Dist.sample
  rw [if_neg (by simp)]
  congr 1
  simp

/-- The group of an entry that scatters into one direction. -/
theorem marg_specular (es : List Entry) (g : Geom) (wi : V3 ℝ) {c : ℕ} (hc : c ≠ 0) (e : Entry) (hg : (groups es)[c]? = some [e]) (hpos : 0 < e.2) (he : Specular e.1 0 g wi) (hone : ∀ wo, e.1.pdfDirection g wi wo 0 false = some 1) :
    Specular (mixtureMarg es) c g wi := by
  obtain ⟨wo, C, hu, hC, hsam, hev⟩ := he.direction
  have hge : groupEval [e] g wi wo .EL false = some (e.2 • C) := by
    rw [groupEval_at (F := fun _ => C) fun x hx => by rw [List.mem_singleton.mp hx]; exact hev]
    simp
  have hgp : groupPdf [e] g wi wo false = some 1 := by
    rw [groupPdf_at (P := fun _ => 1) (by simpa using hpos) fun x hx => by rw [List.mem_singleton.mp hx]; exact hone wo]
    simp [div_self hpos.ne']
  refine ⟨by simp [mixtureMarg, hc], wo, e.2 • C, hu, nonneg_smul hpos.le hC, fun us => ?_, by simp only [mixtureMarg, hg, Option.bind_some, hge]⟩
  simp only [mixtureMarg, hg, sample_one hpos.ne', List.getElem?_cons_zero, hsam, hge, hgp, List.map_cons, List.map_nil]
  simp [weightOf, divV]

/-- The components that can be selected, of a mixture with positive weights: the groups of the specular entries, and that of the others if there are others. -/
theorem marg_ok (es : List Entry) (g : Geom) (wi : V3 ℝ) (hpos : ∀ e ∈ es, 0 < e.2) (hne : es ≠ [])
    (he : ∀ e ∈ es, (FreeDensity e.1 0 g wi ∧ Smooth e.1 0 g wi ∧ MeasurableEval e.1 0 g wi) ∨ (Specular e.1 0 g wi ∧ ∀ wo, e.1.pdfDirection g wi wo 0 false = some 1)) :
    (∀ c grp, (groups es)[c]? = some grp → grp ≠ [] → (c = 0 ∧ Smooth (mixtureMarg es) c g wi ∧ MaterialDensity (mixtureMarg es) c g wi) ∨ (c ≠ 0 ∧ Specular (mixtureMarg es) c g wi)) ∧
    ∀ C : Finset ℕ, (∀ c, c ∈ C ↔ ∃ grp, (groups es)[c]? = some grp ∧ grp ≠ []) → MatOk (mixtureMarg es) g wi C := by
  classical
  have hnn : ∀ e ∈ es, 0 ≤ e.2 := fun e h => (hpos e h).le
  have hsumpos : ∀ l : List Entry, (∀ e ∈ l, 0 < e.2) → l ≠ [] → 0 < (l.map (·.2)).sum := fun l hl hn => List.sum_pos _ (fun x hx => by obtain ⟨e, h, rfl⟩ := List.mem_map.mp hx; exact hl e h) (by simpa using hn)
  have hs := hsumpos es hpos hne
  have hin : ∀ grp ∈ groups es, ∀ e ∈ grp, e ∈ es := fun grp hg e h => by
    rw [C45_groups] at hg
    rcases List.mem_cons.mp hg with rfl | hg
    · exact List.mem_of_mem_filter h
    · obtain ⟨e', h', rfl⟩ := List.mem_map.mp hg
      rw [List.mem_singleton.mp h]
      exact List.mem_of_mem_filter h'
  have hcomp : ∀ c grp, (groups es)[c]? = some grp → grp ≠ [] → (c = 0 ∧ Smooth (mixtureMarg es) c g wi ∧ MaterialDensity (mixtureMarg es) c g wi) ∨ (c ≠ 0 ∧ Specular (mixtureMarg es) c g wi) := fun c grp hg hn => by
    have hmem := List.mem_of_getElem? hg
    have hgp : ∀ e ∈ grp, 0 < e.2 := fun e h => hpos e (hin grp hmem e h)
    by_cases hc : c = 0
    · subst hc
      refine .inl ⟨rfl, marg_smooth es g wi hnn hs grp hg (fun e h => (hgp e h).le) (hsumpos grp hgp hn) fun e h => (he e (hin grp hmem e h)).resolve_right fun hx => ?_⟩
      rw [C45_groups, List.getElem?_cons_zero, Option.some.injEq] at hg
      rw [← hg] at h
      have := (List.mem_filter.mp h).2
      simp [hx.1.kind] at this
    · refine .inr ⟨hc, ?_⟩
      obtain ⟨k, rfl⟩ := Nat.exists_eq_succ_of_ne_zero hc
      have hg' := hg
      rw [C45_groups, List.getElem?_cons_succ, List.getElem?_map, Option.map_eq_some_iff] at hg'
      obtain ⟨e, hk, rfl⟩ := hg'
      have hm := List.mem_filter.mp (List.mem_of_getElem? hk)
      rcases he e hm.1 with hx | hx
      · have := hm.2
        simp [hx.2.1.kind] at this
      · exact marg_specular es g wi hc e hg (hpos e hm.1) hx.1 hx.2
  refine ⟨hcomp, fun C hC => ?_⟩
  have hws : ∀ w ∈ (groups es).map (fun gr => (gr.map (·.2)).sum), 0 ≤ w := fun w hw => by
    obtain ⟨gr, hg, rfl⟩ := List.mem_map.mp hw
    exact List.sum_nonneg fun x hx => by
      obtain ⟨e, h, rfl⟩ := List.mem_map.mp hx
      exact hnn e (hin gr hg e h)
  have htot : 0 < ((groups es).map (fun gr => (gr.map (·.2)).sum)).sum := by
    obtain ⟨e, h⟩ := List.exists_mem_of_ne_nil es hne
    have : ∃ gr ∈ groups es, e ∈ gr := by
      rw [C45_groups]
      by_cases hk : e.1.isSpecular 0 = some true
      · exact ⟨[e], List.mem_cons_of_mem _ (List.mem_map.mpr ⟨e, List.mem_filter.mpr ⟨h, by simpa using hk⟩, rfl⟩), by simp⟩
      · exact ⟨_, List.mem_cons_self, List.mem_filter.mpr ⟨h, by simpa using hk⟩⟩
    obtain ⟨gr, hg, hm⟩ := this
    exact lt_of_lt_of_le (hsumpos gr (fun x hx => hpos x (hin gr hg x hx)) (List.ne_nil_of_mem hm)) (List.single_le_sum hws _ (List.mem_map_of_mem (f := fun gr : List Entry => (gr.map (·.2)).sum) hg))
  obtain ⟨p, hp, _, hp0, hsum⟩ := C81_select_marginalized es g wi hnn hs
  obtain ⟨d, hd, hpm, _⟩ := Dist.C28_pmf _ htot.ne'
  rw [← distOf_eq] at hd
  have hpd : ∀ c (hc : c < (groups es).length), p c = ((groups es)[c].map (·.2)).sum / ((groups es).map (fun gr => (gr.map (·.2)).sum)).sum := fun c hc => by
    have h1 := hp c hc
    have h2 := hpm c (by simpa using hc)
    rw [List.getElem_map] at h2
    simp only [mixtureMarg, hd, Option.map_some, Option.some.injEq] at h1
    rw [← h1, h2]
  have hp1 : ∀ c < (groups es).length, p c ≠ 0 ↔ c ∈ C := fun c hc => by
    rw [hpd c hc, hC]
    have hget := List.getElem?_eq_getElem hc
    constructor
    · intro h0
      exact ⟨_, hget, fun e => h0 (by rw [e]; simp)⟩
    · rintro ⟨grp, h1, h2⟩
      rw [hget, Option.some.injEq] at h1
      rw [h1]
      exact (div_pos (hsumpos grp (fun x hx => hpos x (hin grp (List.mem_of_getElem? (hget.trans (congrArg some h1))) x hx)) h2) htot).ne'
  have hlt : ∀ c ∈ C, c < (groups es).length := fun c hc => by
    obtain ⟨grp, h1, _⟩ := (hC c).mp hc
    exact (List.getElem?_eq_some_iff.mp h1).1
  have hfil : ((Finset.range (groups es).length).filter fun c => p c ≠ 0) = C := by
    ext c
    rw [Finset.mem_filter, Finset.mem_range]
    exact ⟨fun h => (hp1 c h.1).mp h.2, fun h => ⟨hlt c h, (hp1 c (hlt c h)).mpr h⟩⟩
  refine ⟨fun u h0 h1 => ?_, fun F => by rw [hsum F, hfil], fun c hc => ?_⟩
  · obtain ⟨c, h1', _, h3⟩ := select_ok _ hws htot
    obtain ⟨i, hi, e1, e2, e3⟩ := h3 u h0 h1
    rw [List.length_map] at hi
    refine ⟨i, _, e3, ?_, by positivity⟩
    have := hp i hi
    simp only [mixtureMarg, h1', Option.map_some, Option.some.injEq] at this
    rw [← hp1 i hi, ← this]
    exact e2.ne'
  · obtain ⟨grp, h1, h2⟩ := (hC c).mp hc
    exact (hcomp c grp h1 h2).imp (·.2.1) (·.2)

/-- With one group, this is selected. -/
theorem selectComp_one {w : ℝ} (h : w ≠ 0) (u : ℝ) : selectComp (distOf [w]) u = some (0, 1) ∧ (distOf [w]).map (fun c => Dist.pmf c (0 : ℕ)) = some 1 := by
  have e : distOf [w] = some [0 / w, w / w] := by simp [distOf, Dist.addAll, Dist.empty, Dist.add, Dist.back, Dist.norm, h]
  have e2 := sample_one h u
  have e3 : Dist.pmf [0 / w, w / w] (0 : ℕ) = 1 := by simp [Dist.pmf, h]
  rw [e, Option.bind_some] at e2
  refine ⟨?_, by rw [e, Option.map_some, e3]⟩
  simp only [selectComp, e, Option.bind_eq_bind, Option.bind_some, e2, e3]
  simp [divF]

end LM.Transport
