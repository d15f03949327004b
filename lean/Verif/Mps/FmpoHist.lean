import Verif.Mps.FmpoFacts
import Verif.Mps.CenterFacts
/-
What holds after every history of calls on a `FiniteMPO`: the flags are true and a reported centre is surrounded by
mixed-canonical flags.
-/
namespace Verif.Mps
open Finset

/-- The squared norm of a tensor. -/
def normSq {τ K : Type} [CommRing K] [StarRing K] [Fintype τ] (t : Ten τ K) : K :=
  ∑ s, ∑ a ∈ range t.l, ∑ b ∈ range t.r, t.v s a b * star (t.v s a b)

/-- What the code relies on from `SVD(t, 1, …, trunc_err, Dmin, Dmax, &u, &s, &vt, &err, &D)` of the tensor library:
`vt` is a right isometry, `u·s` is the part of `t` along it (the orthogonal projection) and `err` is the fraction
of the squared norm that is discarded. The pair is (`vt`, `u·s`). -/
structure TruncSpec {τ K : Type} [CommRing K] [StarRing K] [Fintype τ] (tsvd : Ten τ K → Ten τ K × Mat K)
    (terr : Ten τ K → K) : Prop where
  dim : ∀ t, (tsvd t).1.r = t.r
  iso : ∀ t, RightIso (tsvd t).1
  proj : ∀ t a j, a < t.l → j < (tsvd t).1.l →
    (tsvd t).2 a j = ∑ s, ∑ b ∈ range t.r, t.v s a b * star ((tsvd t).1.v s j b)
  err : ∀ t, ∑ a ∈ range t.l, ∑ j ∈ range (tsvd t).1.l, (tsvd t).2 a j * star ((tsvd t).2 a j) = (1 - terr t) * normSq t

/-- A normalisation of the tensor library: the returned number times the new tensor is the old tensor. -/
structure NormSpec {τ K : Type} [CommRing K] (nrm : Ten τ K → K × Ten τ K) : Prop where
  dim : ∀ t, (nrm t).2.l = t.l ∧ (nrm t).2.r = t.r
  fac : ∀ t s a b, t.v s a b = (nrm t).1 * (nrm t).2.v s a b

variable {σ K : Type} [CommRing K]

theorem bind_ok {α β : Type} {x : Except Err α} {f : α → Except Err β} {b : β} (h : (x >>= f) = .ok b) :
    ∃ a, x = .ok a ∧ f a = .ok b := by
  cases x with
  | error e => cases h
  | ok a => exact ⟨a, rfl, h⟩

theorem map_ok {α β : Type} {x : Except Err α} {f : α → β} {b : β} (h : x.map f = .ok b) :
    ∃ a, x = .ok a ∧ f a = b := by
  cases x with
  | error e => cases h
  | ok a => exact ⟨a, rfl, by cases h; rfl⟩

theorem read_inv {τ : Type} {m : FMps τ K} {i : Nat} {t : Ten τ K} (h : m.read i = .ok t) : m.slots[i]? = some (some t) := by
  unfold FMps.read at h
  split at h
  · next e => cases h; exact e
  · cases h

section generic
variable {qr svd tsvd : Ten (σ × σ) K → Ten (σ × σ) K × Mat K} {nrm : Ten (σ × σ) K → K × Ten (σ × σ) K}
  {terr : Ten (σ × σ) K → K}

/-- A property of objects that every elementary change keeps. -/
structure Kept (qr svd tsvd : Ten (σ × σ) K → Ten (σ × σ) K × Mat K) (P : FMpo σ K → Prop) : Prop where
  write : ∀ m i t m', P m → m.write i t = .ok m' → P m'
  touch : ∀ m i m', P m → m.touch i = .ok m' → P m'
  left : ∀ m i m', P m → m.leftTen qr i = .ok m' → P m'
  right : ∀ m i m', P m → FMps.rightTen qr svd true m i = .ok m' → P m'
  trunc : ∀ m i m', P m → FMps.rightTen qr tsvd true m i = .ok m' → P m'
  center : ∀ m c, P m → P { m with center := c }

theorem kept_scale {P : FMpo σ K → Prop} (H : Kept qr svd tsvd P) {m m' : FMpo σ K} {c : K} (hm : P m)
    (h : FMpo.scale m c = .ok m') : P m' := by
  unfold FMpo.scale at h
  split at h
  · split at h
    · cases h
    · obtain ⟨t, -, h⟩ := bind_ok h
      obtain ⟨m1, e, h⟩ := bind_ok h
      cases h
      exact H.center _ _ (H.write _ _ _ _ hm e)
  · obtain ⟨t, -, h⟩ := bind_ok h
    exact H.write _ _ _ _ hm h

theorem kept_normalize {P : FMpo σ K → Prop} (H : Kept qr svd tsvd P) {m : FMpo σ K} {r : FMpo σ K × K} (hm : P m)
    (h : FMpo.normalize nrm m = .ok r) : P r.1 := by
  unfold FMpo.normalize at h
  split at h
  · split at h
    · cases h
    · obtain ⟨t, -, h⟩ := bind_ok h
      obtain ⟨m1, e, h⟩ := bind_ok h
      cases h
      exact H.center _ _ (H.write _ _ _ _ hm e)
  · obtain ⟨t, -, h⟩ := bind_ok h
    obtain ⟨m1, e, h⟩ := bind_ok h
    cases h
    exact H.write _ _ _ _ hm e

theorem kept_addStep {P : FMpo σ K → Prop} (H : Kept qr svd tsvd P) {N : Nat} {b m m' : FMpo σ K} {i : Nat} (hm : P m)
    (h : FMpo.addStep N b m i = .ok m') : P m' := by
  unfold FMpo.addStep at h
  split at h
  · cases h
  · cases h
  · obtain ⟨u, -, h⟩ := bind_ok h
    obtain ⟨w, -, h⟩ := bind_ok h
    exact H.write _ _ _ _ hm h

theorem kept_leftCanon {P : FMpo σ K → Prop} (H : Kept qr svd tsvd P) {m m' : FMpo σ K} {s : Nat} (hm : P m)
    (h : m.leftCanon qr s = .ok m') : P m' := by
  unfold FMps.leftCanon at h
  split at h
  · cases h
  · cases h; exact hm
  · exact foldlM_inv (fun a b a' ha e => H.left a b a' ha e) _ _ _ hm h

theorem kept_rightCanon {P : FMpo σ K → Prop} (H : Kept qr svd tsvd P) {m m' : FMpo σ K} {s : Nat} (hm : P m)
    (h : FMpo.rightCanon qr svd m s = .ok m') : P m' := by
  unfold FMpo.rightCanon at h
  split at h
  · split at h
    · cases h
    · cases h; exact hm
    · exact foldlM_inv (fun a b a' ha e => H.right a b a' ha e) _ _ _ hm h
  · cases h

theorem kept_centralize {P : FMpo σ K → Prop} (H : Kept qr svd tsvd P) {m m' : FMpo σ K} {t : Int} (hm : P m)
    (h : FMpo.centralize qr svd m t = .ok m') : P m' := by
  unfold FMpo.centralize at h
  split at h
  · cases h
  · split at h
    · cases h
    · next m1 h1 =>
      have i1 : P m1 := by
        unfold FMps.centL at h1
        split at h1
        · exact kept_leftCanon H hm h1
        · cases h1; exact hm
      split at h
      · cases h
      · next m2 h2 =>
        have i2 : P m2 := by
          unfold FMpo.centR at h2
          split at h2
          · exact kept_rightCanon H i1 h2
          · cases h2; exact i1
        cases h
        exact H.center _ _ i2

theorem kept_trace [Fintype σ] [DecidableEq σ] {P : FMpo σ K → Prop} (H : Kept qr svd tsvd P) {m : FMpo σ K}
    {r : FMpo σ K × K} (hm : P m) (h : FMpo.trace m = .ok r) : P r.1 := by
  unfold FMpo.trace at h
  obtain ⟨t, -, h⟩ := bind_ok h
  obtain ⟨m0, e0, h⟩ := bind_ok h
  split at h
  · obtain ⟨s, e, h⟩ := bind_ok h
    split at h
    · cases h
      refine foldlM_inv (P := fun s : FMpo σ K × Nat × (Nat → K) => P s.1) (fun a b a' ha e => ?_) _ _ _
        (H.touch _ _ _ hm e0) e
      unfold FMpo.traceStep at e
      obtain ⟨t, -, e⟩ := bind_ok e
      obtain ⟨m1, e1, e⟩ := bind_ok e
      split at e
      · cases e; exact H.touch _ _ _ ha e1
      · cases e
    · cases h
  · cases h

theorem kept_truncate {P : FMpo σ K → Prop} (H : Kept qr svd tsvd P) {m : FMpo σ K} {r : FMpo σ K × List K} (hm : P m)
    (h : FMpo.truncate qr svd tsvd terr m = .ok r) : P r.1 := by
  unfold FMpo.truncate at h
  split at h
  · obtain ⟨m1, e1, h⟩ := bind_ok h
    refine foldlM_inv (P := fun s : FMpo σ K × List K => P s.1) (fun a b a' ha e => ?_) _ _ _
      (kept_centralize H hm e1) h
    obtain ⟨t, -, e⟩ := bind_ok e
    obtain ⟨m2, e2, e⟩ := bind_ok e
    cases e
    exact H.trunc _ _ _ ha e2
  · cases h

/-- The calls that go through the accessors of the class: not `Load` and not `MpoAllScale`. -/
def MpoCall.tracked : MpoCall σ K → Prop
  | .allScale _ => False
  | .loadDir _ => False
  | _ => True

theorem kept_call [Fintype σ] [DecidableEq σ] {P : FMpo σ K → Prop} (H : Kept qr svd tsvd P) {m m' : FMpo σ K}
    {c : MpoCall σ K} (hc : c.tracked) (hm : P m) (h : FMpo.call qr svd nrm tsvd terr m c = .ok m') : P m' := by
  cases c with
  | write i t => exact H.write _ _ _ _ hm h
  | touch i => exact H.touch _ _ _ hm h
  | leftTen i => exact H.left _ _ _ hm h
  | rightTen i => exact H.right _ _ _ hm h
  | left s => exact kept_leftCanon H hm h
  | right s => exact kept_rightCanon H hm h
  | centralize t => exact kept_centralize H hm h
  | scale c => exact kept_scale H hm h
  | normalize =>
    obtain ⟨r, e, rfl⟩ := map_ok h
    exact kept_normalize H hm e
  | add b =>
    simp only [FMpo.call, FMpo.addAssign] at h
    split at h
    · exact foldlM_inv (fun a b a' ha e => kept_addStep H ha e) _ _ _ hm h
    · cases h
  | addSelf =>
    simp only [FMpo.call, FMpo.addSelf] at h
    exact foldlM_inv (fun a b a' ha e => kept_addStep H ha e) _ _ _ hm h
  | trace =>
    obtain ⟨r, e, rfl⟩ := map_ok h
    exact kept_trace H hm e
  | truncate =>
    obtain ⟨r, e, rfl⟩ := map_ok h
    exact kept_truncate H hm e
  | allScale c => exact hc.elim
  | loadDir d => exact hc.elim

theorem kept_inv : Kept qr svd tsvd (fun m => Inv m) where
  write := fun _ _ _ _ h e => inv_write h e
  touch := fun _ _ _ h e => inv_touch h e
  left := fun m i m' h e => inv_leftTen m i m' h e
  right := fun m i m' h e => inv_rightTen true m i m' h e
  trunc := fun m i m' h e => inv_rightTen true m i m' h e
  center := fun _ _ h => ⟨h.flen, h.left, h.zero⟩

theorem kept_truthful [StarRing K] [Fintype σ] (H : QRSpec qr) (H' : SVDSpec svd) (H'' : TruncSpec tsvd terr) :
    Kept qr svd tsvd (fun m => Truthful m) where
  write := fun _ _ _ _ h e => truthful_write h e
  touch := fun _ _ _ h e => truthful_touch h e
  left := fun m i m' h e => truthful_leftTen H m i m' h e
  right := fun m i m' h e => truthful_rightTen H H' true m i m' h e
  trunc := fun m i m' h e => truthful_rightTen_iso H.iso H''.iso true m i m' h e
  center := fun _ _ h => h

theorem kept_size (n : Nat) : Kept qr svd tsvd (fun m => m.size = n) where
  write := fun m i t m' h e => by
    unfold FMps.write at e
    split at e
    · cases e; simpa [FMps.size] using h
    · cases e
  touch := fun m i m' h e => by
    unfold FMps.touch at e
    split at e <;> cases e <;> simpa [FMps.size] using h
  left := fun m i m' h e => by rw [(leftTen_flags e).2.2.2, h]
  right := fun m i m' h e => by rw [(rightTen_flags e).2.2.2.2, h]
  trunc := fun m i m' h e => by rw [(rightTen_flags e).2.2.2.2, h]
  center := fun _ _ h => h

theorem mpoCentralize_centred {m m' : FMpo σ K} {t : Int} (hi : Inv m) (h : FMpo.centralize qr svd m t = .ok m') :
    Centred m' ∧ m'.center = t := by
  unfold FMpo.centralize at h
  split at h
  · cases h
  · next ht =>
    cases e1 : m.centL qr t.toNat with
    | error x => rw [e1] at h; cases h
    | ok m1 =>
      rw [e1] at h
      simp only [centR_svd] at h
      cases e2 : m1.centR (svdAsQr svd) svd t.toNat with
      | error x => rw [e2] at h; cases h
      | ok m2 =>
        rw [e2] at h
        simp only at h
        cases h
        obtain ⟨a, b, c⟩ := centHalves_flags hi e1 e2
        have b' : FMps.size { m2 with center := t } = m.size := b
        refine ⟨Or.inr ⟨t.toNat, by omega, ?_, fun j hj => c j (by omega)⟩, rfl⟩
        show t = _
        omega

/-- A write at the centre that puts the centre back. -/
theorem centred_restore {m m1 : FMpo σ K} {t : Ten (σ × σ) K} (hc : Centred m) (h0 : ¬ m.center < 0)
    (h : m.write m.center.toNat t = .ok m1) : Centred { m1 with center := m.center } := by
  unfold FMps.write at h
  split at h
  · cases h
    rcases hc with hc | ⟨c, h1, h2, h3⟩
    · omega
    · refine Or.inr ⟨c, by simpa [FMps.size] using h1, h2, fun j hj => ?_⟩
      have hj' : j < m.size := by simpa [FMps.size] using hj
      show (m.flags.set m.center.toNat .none)[j]? = _
      rw [show m.center.toNat = c by omega, List.getElem?_set]
      by_cases e : c = j
      · subst e
        have := h3 c hj'
        have hlen : c < m.flags.length := (List.getElem?_eq_some_iff.mp this).1
        rw [if_pos rfl, if_pos hlen, if_neg (by omega), if_neg (by omega)]
      · rw [if_neg e]; exact h3 j hj'
  · cases h

theorem mpo_centred_call [Fintype σ] [DecidableEq σ] {m m' : FMpo σ K} {c : MpoCall σ K} (ht : c.tracked) (hi : Inv m)
    (hc : Centred m) (h : FMpo.call qr svd nrm tsvd terr m c = .ok m') : Centred m' := by
  cases c with
  | write i t => exact Or.inl (center_write h)
  | touch i => exact Or.inl (center_touch h)
  | leftTen i => exact Or.inl (leftTen_flags h).2.2.1
  | rightTen i => exact Or.inl (rightTen_flags (b := true) h).2.2.2.1
  | left s => exact centred_leftCanon hi hc h
  | right s => exact centred_rightCanon (qr := svdAsQr svd) (svd := svd) hi hc h
  | centralize t => exact (mpoCentralize_centred hi h).1
  | scale k =>
    simp only [FMpo.call, FMpo.scale] at h
    split at h
    · split at h
      · cases h
      · next h0 =>
        obtain ⟨t, -, h⟩ := bind_ok h
        obtain ⟨m1, e, h⟩ := bind_ok h
        cases h
        exact centred_restore hc h0 e
    · obtain ⟨t, -, h⟩ := bind_ok h
      exact Or.inl (center_write h)
  | normalize =>
    obtain ⟨r, e, rfl⟩ := map_ok h
    unfold FMpo.normalize at e
    split at e
    · split at e
      · cases e
      · next h0 =>
        obtain ⟨t, -, e⟩ := bind_ok e
        obtain ⟨m1, e1, e⟩ := bind_ok e
        cases e
        exact centred_restore hc h0 e1
    · obtain ⟨t, -, e⟩ := bind_ok e
      obtain ⟨m1, e1, e⟩ := bind_ok e
      cases e
      exact Or.inl (center_write e1)
  | add b =>
    simp only [FMpo.call, FMpo.addAssign] at h
    split at h
    · by_cases c0 : List.range m.size = []
      · rw [c0] at h; simp [pure, Except.pure] at h; rw [← h]; exact hc
      · refine Or.inl (center_fold (fun a i a' e => ?_) _ _ _ c0 h)
        unfold FMpo.addStep at e
        split at e
        · cases e
        · cases e
        · obtain ⟨u, -, e⟩ := bind_ok e
          obtain ⟨w, -, e⟩ := bind_ok e
          exact center_write e
    · cases h
  | addSelf =>
    simp only [FMpo.call, FMpo.addSelf] at h
    by_cases c0 : List.range m.size = []
    · rw [c0] at h; simp [pure, Except.pure] at h; rw [← h]; exact hc
    · refine Or.inl (center_fold (fun a i a' e => ?_) _ _ _ c0 h)
      unfold FMpo.addStep at e
      split at e
      · cases e
      · cases e
      · obtain ⟨u, -, e⟩ := bind_ok e
        obtain ⟨w, -, e⟩ := bind_ok e
        exact center_write e
  | trace =>
    obtain ⟨r, e, rfl⟩ := map_ok h
    unfold FMpo.trace at e
    obtain ⟨t, -, e⟩ := bind_ok e
    obtain ⟨m0, e0, e⟩ := bind_ok e
    split at e
    · obtain ⟨s, e1, e⟩ := bind_ok e
      split at e
      · cases e
        refine Or.inl (foldlM_inv (P := fun s : FMpo σ K × Nat × (Nat → K) => s.1.center = -1) (fun a b a' ha e => ?_) _ _ _
          (center_touch e0) e1)
        unfold FMpo.traceStep at e
        obtain ⟨t, -, e⟩ := bind_ok e
        obtain ⟨m1, e1, e⟩ := bind_ok e
        split at e
        · cases e; exact center_touch e1
        · cases e
      · cases e
    · cases e
  | truncate =>
    obtain ⟨r, e, rfl⟩ := map_ok h
    unfold FMpo.truncate at e
    split at e
    · next h2 =>
      obtain ⟨m1, e1, e⟩ := bind_ok e
      obtain ⟨n, hn⟩ : ∃ n, m.size - 1 = n + 1 := ⟨m.size - 2, by omega⟩
      rw [hn, range'_rev_succ] at e
      obtain ⟨s1, f1, f2⟩ := foldlM_cons_inv e
      refine Or.inl (foldlM_inv (P := fun s : FMpo σ K × List K => s.1.center = -1) (fun a b a' ha e => ?_) _ _ _ ?_ f2)
      · obtain ⟨t, -, e⟩ := bind_ok e
        obtain ⟨m2, e2, e⟩ := bind_ok e
        cases e
        exact (rightTen_flags e2).2.2.2.1
      · obtain ⟨t, -, f1⟩ := bind_ok f1
        obtain ⟨m2, e2, f1⟩ := bind_ok f1
        cases f1
        exact (rightTen_flags e2).2.2.2.1
    · cases e
  | allScale c => exact ht.elim
  | loadDir d => exact ht.elim

theorem mpo_history [Fintype σ] [DecidableEq σ] [StarRing K] (H : QRSpec qr) (H' : SVDSpec svd) (H'' : TruncSpec tsvd terr)
    {n : Nat} {cs : List (MpoCall σ K)} {m : FMpo σ K} (ht : ∀ c ∈ cs, c.tracked)
    (h : FMpo.history qr svd nrm tsvd terr n cs = .ok m) : Inv m ∧ Truthful m ∧ Centred m ∧ m.size = n := by
  refine foldlM_inv_mem (P := fun m : FMpo σ K => Inv m ∧ Truthful m ∧ Centred m ∧ m.size = n) cs _ _
    (fun a c a' hmem ha e => ⟨kept_call kept_inv (ht c hmem) ha.1 e, kept_call (kept_truthful H H' H'') (ht c hmem) ha.2.1 e,
      mpo_centred_call (ht c hmem) ha.1 ha.2.2.1 e, kept_call (kept_size n) (ht c hmem) ha.2.2.2 e⟩)
    ⟨inv_fresh n, truthful_fresh n, Or.inl rfl, by simp [FMpo.fresh, FMps.fresh, FMps.size]⟩ h

theorem inv_setCenter {m m' : FMpo σ K} (hi : Inv m) (h : FMpo.setCenter m = .ok m') : Inv m' ∧ m'.slots = m.slots := by
  unfold FMpo.setCenter at h
  split at h
  · split at h
    · cases h
    · cases h
      refine ⟨⟨by simp [FMps.size], fun i hl => ?_, ?_⟩, rfl⟩
      · show ((List.range m.size).map _)[i + 1]? = _ ∨ ((List.range m.size).map _)[i + 1]? = _
        have hi' : i < m.size := by
          have := (List.getElem?_eq_some_iff.mp hl).1
          simpa using this
        have hl' : i < m.center.toNat := by
          simp only [List.getElem?_map, List.getElem?_range hi', Option.map_some, Option.some.injEq] at hl
          by_contra hn
          rw [if_neg hn] at hl
          split at hl <;> cases hl
        rename_i h1 h2
        have hc : m.center.toNat < m.size := by
          have := hi.flen
          have h3 : m.slots.length = m.size := rfl
          omega
        simp only [List.getElem?_map, List.getElem?_range (show i + 1 < m.size by omega), Option.map_some, Option.some.injEq]
        by_cases e : i + 1 < m.center.toNat
        · left; rw [if_pos e]
        · right; rw [if_neg e, if_pos (by omega)]
      · show ((List.range m.size).map _)[0]? ≠ _
        by_cases h0 : 0 < m.size
        · simp only [List.getElem?_map, List.getElem?_range h0, Option.map_some]
          by_cases e : 0 < m.center.toNat
          · rw [if_pos e]; simp
          · rw [if_neg e, if_pos (by omega)]; simp
        · rw [List.getElem?_eq_none (by simp; omega)]; simp
  · cases h; exact ⟨hi, rfl⟩

/-- Flags stay consistent in every history, loads and `MpoAllScale` included. -/
theorem mpo_call_inv [Fintype σ] [DecidableEq σ] {m m' : FMpo σ K} {n : Nat} {c : MpoCall σ K} (hm : Inv m ∧ m.size = n)
    (h : FMpo.call qr svd nrm tsvd terr m c = .ok m') : Inv m' ∧ m'.size = n := by
  by_cases ht : c.tracked
  · exact ⟨kept_call kept_inv ht hm.1 h, kept_call (kept_size n) ht hm.2 h⟩
  · cases c with
    | allScale k =>
      simp only [FMpo.call, FMpo.allScale] at h
      split at h
      · cases h
        exact ⟨⟨by simpa using hm.1.flen, hm.1.left, hm.1.zero⟩, by simpa [FMps.size] using hm.2⟩
      · cases h
    | loadDir d =>
      simp only [FMpo.call, FMpo.loadDir] at h
      obtain ⟨m1, e, h⟩ := bind_ok h
      have i1 : Inv m1 ∧ m1.size = n := by
        refine foldlM_inv (P := fun m : FMpo σ K => Inv m ∧ m.size = n) (fun a b a' ha e => ?_) _ _ _ hm e
        unfold FMpo.loadStep at e
        split at e
        · unfold FMps.load at e
          split at e
          · cases e
            exact ⟨⟨by simpa using ha.1.flen, ha.1.left, ha.1.zero⟩, by simpa [FMps.size] using ha.2⟩
          · cases e
        · cases e
      obtain ⟨i2, s2⟩ := inv_setCenter (m := { m1 with center := d.center.getD m1.center }) ⟨i1.1.flen, i1.1.left, i1.1.zero⟩ h
      refine ⟨i2, ?_⟩
      rw [← i1.2]
      show m'.slots.length = m1.slots.length
      rw [s2]
    | _ => exact absurd trivial ht

theorem mpo_history_inv [Fintype σ] [DecidableEq σ] {n : Nat} {cs : List (MpoCall σ K)} {m : FMpo σ K}
    (h : FMpo.history qr svd nrm tsvd terr n cs = .ok m) : Inv m ∧ m.size = n :=
  foldlM_inv (P := fun m : FMpo σ K => Inv m ∧ m.size = n) (fun _ _ _ ha e => mpo_call_inv ha e) _ _ _
    ⟨inv_fresh n, by simp [FMpo.fresh, FMps.fresh, FMps.size]⟩ h

end generic
end Verif.Mps
