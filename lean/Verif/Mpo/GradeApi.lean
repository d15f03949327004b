import Verif.Mpo.ApiMain
/-
The matrices generated from charge-neutral terms are graded.
-/
namespace Verif.Mpo
open SparMat NullElem Finset

theorem hasLab_addTerm {k : Label} {c : CoefRepr} {a : OpRepr} {l : Label} (h : HasLab (OpRepr.addTerm k c a) l) :
    HasLab a l ∨ k = l := by
  induction a with
  | nil => obtain ⟨kc, h1, h2⟩ := h; simp [OpRepr.addTerm] at h1; subst h1; exact Or.inr h2
  | cons kc a ih =>
    unfold OpRepr.addTerm at h
    obtain ⟨x, h1, h2⟩ := h
    by_cases hk : k = l
    · exact Or.inr hk
    left
    obtain ⟨k', c'⟩ := kc
    simp only at h1
    split at h1
    · simp only [List.mem_cons] at h1
      rcases h1 with rfl | rfl | h1
      · exact absurd h2 hk
      · exact ⟨_, by simp, h2⟩
      · exact ⟨x, by simp [h1], h2⟩
    · split at h1
      · simp only [List.mem_cons] at h1
        rcases h1 with rfl | h1
        · exact ⟨(k', c'), by simp, h2⟩
        · exact ⟨x, by simp [h1], h2⟩
      · simp only [List.mem_cons] at h1
        rcases h1 with rfl | h1
        · exact ⟨_, by simp, h2⟩
        · rcases ih ⟨x, h1, h2⟩ with ⟨y, h3, h4⟩ | h3
          · exact ⟨y, by simp [h3], h4⟩
          · exact absurd h3 hk

theorem hasLab_add {a b : OpRepr} {l : Label} (h : HasLab (OpRepr.add a b) l) : HasLab a l ∨ HasLab b l := by
  unfold OpRepr.add at h
  induction b generalizing a with
  | nil => exact Or.inl h
  | cons kc b ih =>
    rw [List.foldl_cons] at h
    rcases ih h with h | ⟨y, h1, h2⟩
    · rcases hasLab_addTerm h with h | h
      · exact Or.inl h
      · exact Or.inr ⟨kc, by simp, h⟩
    · exact Or.inr ⟨y, by simp [h1], h2⟩

theorem acc_hasLab {f : Fsm} {idOps : Nat → OpRepr} {ts : List Term} {i x y : Nat} {l : Label} :
    ∀ {k : Nat}, HasLab (f.acc idOps ts i x y k) l →
      ∃ k', k' < k ∧ f.idx ts i k' = x ∧ f.idx ts (i + 1) k' = y ∧ HasLab (opK idOps ts k' i) l
  | 0, h => by obtain ⟨_, h, _⟩ := h; simp [Fsm.acc] at h
  | k + 1, h => by
    rw [Fsm.acc] at h
    have lift : HasLab (f.acc idOps ts i x y k) l → ∃ k', k' < k + 1 ∧ f.idx ts i k' = x ∧ f.idx ts (i + 1) k' = y ∧
        HasLab (opK idOps ts k' i) l := by
      intro h
      obtain ⟨k', h1, h2⟩ := acc_hasLab h
      exact ⟨k', by omega, h2⟩
    split at h
    · rename_i hm
      have self : HasLab (opK idOps ts k i) l → ∃ k', k' < k + 1 ∧ f.idx ts i k' = x ∧ f.idx ts (i + 1) k' = y ∧
        HasLab (opK idOps ts k' i) l := fun h => ⟨k, by omega, hm.1, hm.2, h⟩
      unfold comb at h
      split at h
      · exact self h
      · split at h
        · rcases hasLab_add h with h | h
          · exact lift h
          · exact self h
        · exact lift h
    · exact lift h

theorem acc_ne_nil {f : Fsm} {idOps : Nat → OpRepr} {ts : List Term} {i x y : Nat} {k' : Nat}
    (h1 : f.idx ts i k' = x) (h2 : f.idx ts (i + 1) k' = y) (h3 : opK idOps ts k' i ≠ []) :
    ∀ {k : Nat}, k' < k → f.acc idOps ts i x y k ≠ []
  | 0, h => by omega
  | k + 1, h => by
    rw [Fsm.acc]
    by_cases hk : k' = k
    · subst hk
      rw [if_pos ⟨h1, h2⟩]
      exact fun h => h3 (comb_eq_nil.1 h).2
    · have := acc_ne_nil h1 h2 h3 (show k' < k by omega)
      split
      · exact fun h => this (comb_eq_nil.1 h).1
      · exact this

variable {Q : Type} [AddCommGroup Q]

/-- Charge of a single-label operator. -/
def dOp (d : Label → Q) (op : OpRepr) : Q := match op with
  | [] => 0
  | kc :: _ => d kc.1

/-- Charge accumulated by path `k` before bond `b`, with the sign of the bond convention. -/
def chg (d : Label → Q) (idOps : Nat → OpRepr) (ts : List Term) (k b : Nat) : Q :=
  - ∑ s ∈ range b, dOp d (opK idOps ts k s)

section
variable {N : Nat} {idOps : Nat → OpRepr} {f : Fsm} {ts : List Term} (h : FsmRep N idOps f ts)
  (hv : ∀ t ∈ ts, t.Valid N) (hs : ∀ t ∈ ts, t.Shape) (hid : IdShape N idOps) (d : Label → Q)
  (hd0 : ∀ s, s < N → dOp d (idOps s) = 0) (htot : ∀ k, k < ts.length → chg d idOps ts k N = 0)
include h hv hd0 htot

omit h hv htot in
theorem chg_ready {k b : Nat} (hk : k < ts.length) (hb : b ≤ N) (hr : b ≤ ts[k].head) : chg d idOps ts k b = 0 := by
  unfold chg
  rw [Finset.sum_eq_zero, neg_zero]
  intro s hs'
  have := Finset.mem_range.1 hs'
  rw [opK_id hk (Or.inl (by omega))]
  exact hd0 s (by omega)

omit h hv in
theorem chg_final {k b : Nat} (hk : k < ts.length) (hb : b ≤ N) (hr : ts[k].tail < b) : chg d idOps ts k b = 0 := by
  rw [← htot k hk]
  unfold chg
  congr 1
  refine Finset.sum_subset (fun s hs' => ?_) (fun s hs1 hs2 => ?_)
  · have := Finset.mem_range.1 hs'; exact Finset.mem_range.2 (by omega)
  · have e1 := Finset.mem_range.1 hs1
    have e2 : ¬ s < b := fun h => hs2 (Finset.mem_range.2 h)
    rw [opK_id hk (Or.inr (by omega))]
    exact hd0 s e1

theorem chg_same {j k b : Nat} (hj : j < ts.length) (hk : k < ts.length) (hb : b ≤ N)
    (e : f.idx ts b j = f.idx ts b k) : chg d idOps ts j b = chg d idOps ts k b := by
  rw [same_iff h hv hb hj hk] at e
  rcases e with ⟨h1, h2⟩ | ⟨h1, h2⟩ | ⟨rfl, _⟩
  · rw [chg_ready d hd0 hj hb h1, chg_ready d hd0 hk hb h2]
  · rw [chg_final d hd0 htot hj hb h1, chg_final d hd0 htot hk hb h2]
  · rfl

open Classical in
/-- Charge of index `x` of bond `b`. -/
noncomputable def bondQ (f : Fsm) (d : Label → Q) (idOps : Nat → OpRepr) (ts : List Term) (b x : Nat) : Q :=
  if hx : ∃ k, k < ts.length ∧ f.idx ts b k = x then chg d idOps ts hx.choose b else 0

theorem bondQ_eq {k b : Nat} (hk : k < ts.length) (hb : b ≤ N) :
    bondQ f d idOps ts b (f.idx ts b k) = chg d idOps ts k b := by
  unfold bondQ
  have hx : ∃ k', k' < ts.length ∧ f.idx ts b k' = f.idx ts b k := ⟨k, hk, rfl⟩
  rw [dif_pos hx]
  exact chg_same h hv d hd0 htot hx.choose_spec.1 hk hb hx.choose_spec.2

include hs hid

theorem raw_gchain {ms : Nat → SparMat OpRepr} (hm : MatsAt f idOps ts N ts.length ms) (hne : ts ≠ []) :
    ∀ n i, i + n = N → GChain d (bondQ f d idOps ts i) (matsFrom ms N i)
  | 0, i, hi => by
    have : i = N := by omega
    subst this
    rw [matsFrom_end]
    show bondQ f d idOps ts i 0 = 0
    have hlen : 0 < ts.length := List.length_pos_of_ne_nil hne
    have hlt := (idx_lt h hv (Nat.le_refl i) hlen).2
    rw [dim_end h hv hne] at hlt
    have : f.idx ts i 0 = 0 := by omega
    rw [← this, bondQ_eq h hv d hd0 htot hlen (Nat.le_refl i), htot 0 hlen]
  | n + 1, i, hi => by
    rw [matsFrom_succ ms (show i < N by omega)]
    have ih := raw_gchain hm hne n (i + 1) (by omega)
    obtain ⟨_, hr, hc, hg⟩ := hm i (by omega)
    have hone : ∀ k, k < ts.length → opK idOps ts k i ≠ [] := by
      intro k hk
      obtain ⟨l, c, e⟩ := opK_single hv hs hid (show i < N by omega) hk
      rw [e]; simp
    refine ⟨?_, ?_, _, ?_, ih⟩
    · intro y hy
      simp only [lines, hc] at hy
      obtain ⟨k, hk, e⟩ := idx_surj h hv (show i + 1 ≤ N by omega) hy
      have hlt := (idx_lt h hv (show i ≤ N by omega) hk).2
      refine ⟨f.idx ts i k, by simp only [cross, hr]; exact hlt, ?_⟩
      show (ms i).get _ _ ≠ []
      rw [hg _ y hy]
      exact acc_ne_nil rfl e (hone k hk) hk
    · intro x hx
      simp only [lines, hr] at hx
      obtain ⟨k, hk, e⟩ := idx_surj h hv (show i ≤ N by omega) hx
      have hlt := (idx_lt h hv (show i + 1 ≤ N by omega) hk).2
      refine ⟨f.idx ts (i + 1) k, by simp only [cross, hc]; exact hlt, ?_⟩
      show (ms i).get _ _ ≠ []
      rw [hg x _ hlt]
      exact acc_ne_nil e rfl (hone k hk) hk
    · intro x y hx hy l hl
      simp only [cross, hc] at hy
      have hl : HasLab ((ms i).get x y) l := hl
      rw [hg x y hy] at hl
      obtain ⟨k, hk, rfl, rfl, hlab⟩ := acc_hasLab hl
      rw [bondQ_eq h hv d hd0 htot hk (by omega), bondQ_eq h hv d hd0 htot hk (by omega)]
      obtain ⟨l', c, e⟩ := opK_single hv hs hid (show i < N by omega) hk
      rw [e] at hlab
      obtain ⟨kc, h1, rfl⟩ := hlab
      simp only [List.mem_singleton] at h1
      subst h1
      unfold chg
      rw [Finset.sum_range_succ, e]
      simp [dOp]

end

section
variable {C T : Type} [DecidableEq C] [DecidableEq T] [G : GenTypes C T]

/-- Divergence of the operator behind a label. -/
def labDiv (tdiv : T → Q) (hub : List T) (l : Label) : Q := (hub[l]?).elim 0 tdiv

theorem normalize_div (tdiv : T → Q) (hneg : ∀ t, tdiv (GenTypes.tneg C t) = tdiv t) :
    ∀ (c : C) (ts : List T), ((normalize c ts).2.map tdiv) = ts.map tdiv
  | _, [] => rfl
  | c, t :: ts => by
    unfold normalize
    by_cases hn : GenTypes.negFirst C t = true <;> simp [hn, normalize_div tdiv hneg _ ts, hneg]

theorem normCall_div (tdiv : T → Q) (hneg : ∀ t, tdiv (GenTypes.tneg C t) = tdiv t) (c : Call C T)
    (hl : c.ops.length = c.idxs.length) :
    ((normCall c).2.map (fun a => tdiv a.2)).sum = (c.ops.map tdiv).sum := by
  unfold normCall
  simp only
  have e : (fun a : Nat × T => tdiv a.2) = tdiv ∘ Prod.snd := rfl
  rw [e, ← List.map_map, List.map_snd_zip (by simp [normalize_length]), normalize_div tdiv hneg]
  rw [List.map_map]
  have := ((sortBySite_perm (c.idxs.zip c.ops)).map (tdiv ∘ Prod.snd)).sum_eq
  refine this.trans ?_
  rw [← List.map_map, List.map_snd_zip (by omega)]

theorem GenInv.opK_label {ids : List T} {idO : Nat → OpRepr} {g : Generator C T} {calls : List (Call C T)} {ts : List Term}
    (h : GenInv ids idO g calls ts) {k : Nat} (hkc : k < calls.length) (hk : k < ts.length) {s : Nat} (hs : s < ids.length) :
    ∃ lb c x, opK idO ts k s = [(lb, c)] ∧ g.opHub[lb]? = some x ∧ opAtSite (normCall calls[k]).2 ids s = some x := by
  have hres := (List.forall₂_iff_get.1 h.terms).2 k hkc hk
  simp only [List.get_eq_getElem] at hres
  obtain ⟨cl, hcl, hr⟩ := hres.rep
  by_cases hin : s < ts[k].head ∨ ts[k].tail < s
  · obtain ⟨lb, e1, e2⟩ := h.hid s hs
    refine ⟨lb, kIdCoef, ids[s], by rw [opK_id hk hin, e2], by rw [e1, List.getElem?_eq_getElem hs], ?_⟩
    rw [opAtSite_not_mem, List.getElem?_eq_getElem hs]
    intro hmem
    obtain ⟨a, ha, rfl⟩ := List.mem_map.1 hmem
    have hb : ts[k].head ≤ a.1 ∧ a.1 ≤ ts[k].tail := by
      have hasc := hres.asc
      constructor
      · cases hl : (normCall calls[k]).2 with
        | nil => rw [hl] at ha; cases ha
        | cons x r =>
          have := hres.hd
          rw [hl] at this ha hasc
          simp at this
          rcases List.mem_cons.1 ha with rfl | hr
          · omega
          · have := (List.pairwise_cons.1 hasc).1 a hr; omega
      · rcases List.eq_nil_or_concat (normCall calls[k]).2 with hl | ⟨r, x, hl⟩
        · rw [hl] at ha; cases ha
        · have := hres.tl
          rw [List.concat_eq_append] at hl
          rw [hl] at this ha hasc
          simp at this
          rcases List.mem_append.1 ha with hr | hr
          · have := (List.pairwise_append.1 hasc).2.2 a hr x (by simp); omega
          · simp at hr; subst hr; omega
    omega
  · obtain ⟨lb, x, e1, e2, e3⟩ := hr s (by omega) (by omega)
    refine ⟨lb, if s = ts[k].head then [cl] else [0], x, ?_, e2, e1⟩
    unfold opK; rw [List.getElem?_eq_getElem hk]; simp only [opAt]
    rw [if_neg hin, List.getD_eq_getElem?_getD, e3]; rfl

/-- All calls are charge-neutral ⇒ the generated matrices are graded from charge zero to charge zero. -/
theorem GenInv.gchain {ids : List T} {idO : Nat → OpRepr} {g : Generator C T} {calls : List (Call C T)} {ts : List Term}
    (h : GenInv ids idO g calls ts) (hv : ∀ c ∈ calls, c.Valid ids.length) (hne : calls ≠ []) (tdiv : T → Q)
    (hneg : ∀ t, tdiv (GenTypes.tneg C t) = tdiv t) (hid : ∀ t ∈ ids, tdiv t = 0)
    (hneu : ∀ c ∈ calls, (c.ops.map tdiv).sum = 0) {raw : List (SparMat OpRepr)} (hraw : g.fsm.genMatRepr = .ok raw) :
    ∃ q : Nat → Q, q 0 = 0 ∧ GChain (labDiv tdiv g.opHub) q raw := by
  have hlen := h.terms.length_eq
  have hvt := fun t ht => (h.valid t ht).1
  have hst := fun t ht => (h.valid t ht).2
  have htne : ts ≠ [] := by
    intro e; rw [e] at hlen; simp at hlen; exact hne hlen
  obtain ⟨ms, e1, hm⟩ := genMatRepr_spec h.fsm hvt
  rw [hraw] at e1
  simp only [Except.ok.injEq] at e1
  have hd0 : ∀ s, s < ids.length → dOp (labDiv tdiv g.opHub) (idO s) = 0 := by
    intro s hs
    obtain ⟨lb, a, b⟩ := h.hid s hs
    rw [b]
    simp only [dOp, labDiv, a, List.getElem?_eq_getElem hs, Option.elim]
    exact hid _ (List.getElem_mem hs)
  have htot : ∀ k, k < ts.length → chg (labDiv tdiv g.opHub) idO ts k ids.length = 0 := by
    intro k hk
    have hkc : k < calls.length := by omega
    have hvk := hv _ (List.getElem_mem hkc)
    unfold chg
    rw [neg_eq_zero]
    have site : ∀ s, s < ids.length → dOp (labDiv tdiv g.opHub) (opK idO ts k s) =
        (opAtSite (normCall calls[k]).2 ids s).elim 0 tdiv := by
      intro s hs
      obtain ⟨lb, c, x, a, b, e⟩ := h.opK_label hkc hk hs
      rw [a, e]; simp [dOp, labDiv, b]
    rw [Finset.sum_congr rfl (fun s hs => site s (by simpa using hs))]
    have hnd : ((normCall calls[k]).2.map (·.1)).Nodup := ((normCall_sites calls[k] hvk.len).1).nodup_iff.2 hvk.nodup
    rw [← Finset.sum_subset (s₁ := ((normCall calls[k]).2.map (·.1)).toFinset)]
    · rw [List.sum_toFinset _ hnd, List.map_map]
      rw [← hneu _ (List.getElem_mem hkc), ← normCall_div tdiv hneg _ hvk.len]
      congr 1
      refine List.map_congr_left fun a ha => ?_
      simp only [Function.comp]
      rw [opAtSite_mem ids hnd ha]; rfl
    · intro s hs
      rw [List.mem_toFinset, (normCall_sites calls[k] hvk.len).1.mem_iff] at hs
      exact Finset.mem_range.2 (hvk.lt s hs)
    · intro s hs1 hs2
      rw [List.mem_toFinset] at hs2
      have hs1 := Finset.mem_range.1 hs1
      rw [opAtSite_not_mem _ hs2, List.getElem?_eq_getElem hs1]
      exact hid _ (List.getElem_mem hs1)
  refine ⟨bondQ g.fsm (labDiv tdiv g.opHub) idO ts 0, ?_, ?_⟩
  · have hl : 0 < ts.length := List.length_pos_of_ne_nil htne
    have hlt := (idx_lt h.fsm hvt (Nat.zero_le _) hl).2
    rw [dim_start h.fsm hvt htne] at hlt
    have : g.fsm.idx ts 0 0 = 0 := by omega
    have e := bondQ_eq h.fsm hvt _ hd0 htot hl (Nat.zero_le ids.length)
    rw [this] at e
    rw [e]; simp [chg]
  · rw [e1, ← matsFrom_zero]
    exact raw_gchain h.fsm hvt hst h.idShape _ hd0 htot hm htne ids.length 0 (by omega)

end
end Verif.Mpo
