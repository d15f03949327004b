import Mathlib.Data.Rat.Defs
import Mathlib.Algebra.Order.Ring.Rat
/-
The running noise of the algorithms with subspace expansion
(algorithm/vmps/single_site_update_finite_vmps_impl.h, algorithm/vmps/two_site_update_noise_finite_vmps_impl.h).
-/
namespace Verif.Algo

/-- The operations on `double` that the rule uses; comparisons may come out in any way (also for NaN). -/
structure Dbl (K : Type) where
  zero : K
  one : K
  sub : K → K → K
  mul : K → K → K
  abs : K → K
  le : K → K → Bool
  lt : K → K → Bool

/-- `std::min(a, b)` (single_site_update_finite_vmps_impl.h:151, 173; two_site_update_noise_finite_vmps_impl.h:165, 187). -/
def Dbl.min {K : Type} (D : Dbl K) (a b : K) : K := if D.lt b a then b else a

/-- What the theorems use of `double` arithmetic, `ok` being "finite and not negative". (A product may overflow: it is
then larger than every finite number.) -/
structure Dbl.Laws {K : Type} (D : Dbl K) (ok : K → Prop) : Prop where
  zero_ok : ok D.zero
  refl : ∀ a, ok a → D.le a a = true
  trans : ∀ a b c, D.le a b = true → D.le b c = true → D.le a c = true
  mul_ok : ∀ a b m, ok a → ok b → ok m → D.lt m (D.mul a b) = false → ok (D.mul a b) ∧ D.le (D.mul a b) m = true
  mul_le : ∀ a b, ok a → ok b → D.le b D.one = true → ok (D.mul a b) ∧ D.le (D.mul a b) a = true
  zero_mul : ∀ b, ok b → D.mul D.zero b = D.zero
  zero_le : ∀ a, ok a → D.lt a D.zero = false

/-- The noise parameters of `FiniteVMPSSweepParams` (finite_vmps_sweep_params.h:33-106). -/
structure NoiseParams (K : Type) where
  noises : List K
  maxNoise : K
  increase : K
  decrease : K
  alpha : K

/-- The scalar variables of a sweep. -/
structure NoiseSt (K : Type) where
  e0 : K
  last : K
  noise : K

variable {K : Type} (D : Dbl K) (P : NoiseParams K)

/-- The adaption of the noise at one site, `a` being `actual_e0` (single_site_update_finite_vmps_impl.h:143-152 and
168-175, two_site_update_noise_finite_vmps_impl.h:157-166 and 183-188). -/
def adapt (s : NoiseSt K) (a : K) : K :=
  if D.le (D.sub a s.e0) D.zero then s.noise
  else if D.le (D.mul P.alpha (D.abs (D.sub s.last s.e0))) (D.sub a s.e0) then D.mul s.noise P.decrease
  else D.min (D.mul s.noise P.increase) P.maxNoise

/-- The sites of one sweep, both directions: for each the energy `a` before the update and the energy `e` that the
update returns; these are arbitrary. The result has the noise that was given to each update
(single_site_update_finite_vmps_impl.h:137-188, two_site_update_noise_finite_vmps_impl.h:147-202). -/
def sweepNoise : NoiseSt K → List (K × K) → List K × NoiseSt K
  | s, [] => ([], s)
  | s, (a, e) :: es =>
    let x := adapt D P s a
    let r := sweepNoise ⟨e, a, x⟩ es
    (x :: r.1, r.2)

/-- The loop over the sweeps from index `i` on. `noise_start` and `e0` are not initialised (`none`). The result is
`none` if a sweep uses an uninitialised `noise_start`; else it has the noises of all sweeps and the returned energy
(single_site_update_finite_vmps_impl.h:97-116, two_site_update_noise_finite_vmps_impl.h:104-124). -/
def noiseLoop (ns : List K) : Nat → Option K → Option K → List (List (K × K)) → Option (List (List K) × Option K)
  | _, _, e, [] => some ([], e)
  | i, x, _, es :: rest =>
    match if i < ns.length then ns[i]? else x with
    | none => none
    | some x =>
      let r := sweepNoise D P ⟨D.zero, D.zero, x⟩ es
      (noiseLoop ns (i + 1) (some r.2.noise) (some r.2.e0) rest).map fun q => (r.1 :: q.1, q.2)

/-- `SingleSiteFiniteVMPS`: an empty list of noises is replaced by one zero (single_site_update_finite_vmps_impl.h:99). -/
def noiseSingle (es : List (List (K × K))) : Option (List (List K) × Option K) :=
  noiseLoop D P (if P.noises = [] then [D.zero] else P.noises) 0 none none es

/-- `TwoSiteFiniteVMPSWithNoise`: for an empty list it calls `TwoSiteFiniteVMPS` (not modelled here) and goes on
(two_site_update_noise_finite_vmps_impl.h:86-90, 104-124). -/
def noiseTwo (es : List (List (K × K))) : Option (List (List K) × Option K) := noiseLoop D P P.noises 0 none none es

/-! ### Facts -/
variable {D P} {ok : K → Prop} (L : D.Laws ok)
include L

/-- The parameters are admissible. -/
structure NoiseParams.Ok (D : Dbl K) (P : NoiseParams K) (ok : K → Prop) : Prop where
  noises : ∀ x, x ∈ P.noises → ok x
  max : ok P.maxNoise
  inc : ok P.increase
  dec : ok P.decrease
  dec_one : D.le P.decrease D.one = true

variable (H : P.Ok D ok)
include H

theorem adapt_spec (s : NoiseSt K) (a : K) (h : ok s.noise) :
    ok (adapt D P s a) ∧ (D.le (adapt D P s a) s.noise = true ∨
      D.le (adapt D P s a) P.maxNoise = true ∧ (adapt D P s a = D.mul s.noise P.increase ∨ adapt D P s a = P.maxNoise)) := by
  unfold adapt
  split
  · exact ⟨h, Or.inl (L.refl _ h)⟩
  · split
    · exact ⟨(L.mul_le _ _ h H.dec H.dec_one).1, Or.inl (L.mul_le _ _ h H.dec H.dec_one).2⟩
    · unfold Dbl.min
      split
      · exact ⟨H.max, Or.inr ⟨L.refl _ H.max, Or.inr rfl⟩⟩
      · rename_i hlt
        have := L.mul_ok _ _ _ h H.inc H.max (by simpa using hlt)
        exact ⟨this.1, Or.inr ⟨this.2, Or.inl rfl⟩⟩

theorem adapt_zero (s : NoiseSt K) (a : K) (h : s.noise = D.zero) : adapt D P s a = D.zero := by
  unfold adapt
  rw [h]
  split
  · rfl
  · split
    · exact L.zero_mul _ H.dec
    · rw [L.zero_mul _ H.inc]
      unfold Dbl.min
      rw [if_neg (by rw [L.zero_le _ H.max]; simp)]

/-- Along a sweep: each value is admissible and at most the starting value or `max_noise`, and follows from the one
before by keeping, lowering, or one limited increase. -/
inductive Trace (D : Dbl K) (P : NoiseParams K) (ok : K → Prop) : K → List K → Prop
  | nil (x : K) : Trace D P ok x []
  | cons (x y : K) (ys : List K) : ok y →
      (D.le y x = true ∨ D.le y P.maxNoise = true ∧ (y = D.mul x P.increase ∨ y = P.maxNoise)) →
      Trace D P ok y ys → Trace D P ok x (y :: ys)

theorem sweepNoise_trace : ∀ (es : List (K × K)) (s : NoiseSt K), ok s.noise →
    Trace D P ok s.noise (sweepNoise D P s es).1 ∧ ok (sweepNoise D P s es).2.noise ∧
      (∀ x, x ∈ (sweepNoise D P s es).1 → D.le x s.noise = true ∨ D.le x P.maxNoise = true) ∧
      (D.le (sweepNoise D P s es).2.noise s.noise = true ∨ D.le (sweepNoise D P s es).2.noise P.maxNoise = true)
  | [], s, h => ⟨.nil _, h, fun _ hx => absurd hx (by simp [sweepNoise]), Or.inl (L.refl _ h)⟩
  | (a, e) :: es, s, h => by
    obtain ⟨h1, h2⟩ := adapt_spec L H s a h
    obtain ⟨g1, g2, g3, g4⟩ := sweepNoise_trace es ⟨e, a, adapt D P s a⟩ h1
    have up : ∀ x, D.le x (adapt D P s a) = true ∨ D.le x P.maxNoise = true → D.le x s.noise = true ∨ D.le x P.maxNoise = true := by
      rintro x (hx | hx)
      · rcases h2 with h2 | ⟨h2, -⟩
        · exact Or.inl (L.trans _ _ _ hx h2)
        · exact Or.inr (L.trans _ _ _ hx h2)
      · exact Or.inr hx
    refine ⟨.cons _ _ _ h1 h2 g1, g2, fun x hx => ?_, up _ g4⟩
    rcases List.mem_cons.mp hx with rfl | hx
    · exact up _ (Or.inl (L.refl _ h1))
    · exact up x (g3 x hx)

theorem sweepNoise_zero : ∀ (es : List (K × K)) (s : NoiseSt K), s.noise = D.zero →
    (∀ x, x ∈ (sweepNoise D P s es).1 → x = D.zero) ∧ (sweepNoise D P s es).2.noise = D.zero
  | [], s, h => ⟨fun _ hx => absurd hx (by simp [sweepNoise]), h⟩
  | (a, e) :: es, s, h => by
    have h1 := adapt_zero L H s a h
    obtain ⟨g1, g2⟩ := sweepNoise_zero es ⟨e, a, adapt D P s a⟩ h1
    refine ⟨fun x hx => ?_, g2⟩
    rcases List.mem_cons.mp hx with rfl | hx
    · exact h1
    · exact g1 x hx

end Verif.Algo
