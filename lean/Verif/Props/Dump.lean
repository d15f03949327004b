import Verif.Props.DumpFacts
import Verif.Props.Measure
/-
Property theorems C86 (files of measurement results).
-/
namespace Verif.Props
open Verif.Mps.Dump

section
variable {R : Type}

/-- The library prints `x` with `p` significant digits as a JSON number of value `val p x`: true of finite numbers,
not of infinities and NaNs, whose texts are no JSON numbers. -/
def Prints (fmt : Nat → R → List Char) (val : Nat → R → ℚ) (p : Nat) (x : R) : Prop :=
  jsonNumber (fmt p x) = some (val p x)

/-- A real average as JSON. -/
def realJson (val : Nat → R → ℚ) (x : R) : Json := .num (val 12 x)

/-- A complex average as JSON: real and imaginary part. -/
def complexJson (val : Nat → R → ℚ) (z : R × R) : Json := .arr [.num (val 12 z.1), .num (val 12 z.2)]

/-- Site numbers as JSON. -/
def sitesJson (l : List Nat) : Json := .arr (l.map fun (n : Nat) => .num (n : ℚ))

theorem piece_nat (p n : Nat) : Piece (showNat p n) (.num (n : ℚ)) := piece_num (jsonNumber_nat n)

theorem avgWriter_real {fmt : Nat → R → List Char} {val : Nat → R → ℚ} {x : R} (h : Prints fmt val 12 x) :
    AvgWriter (dumpAvgR fmt) (realJson val) x :=
  ⟨pad 14 (fmt 12 x), piece_pad (piece_num h), fun _ => rfl⟩

theorem avgWriter_complex {fmt : Nat → R → List Char} {val : Nat → R → ℚ} {z : R × R} (h1 : Prints fmt val 12 z.1)
    (h2 : Prints fmt val 12 z.2) : AvgWriter (dumpAvgC fmt) (complexJson val) z := by
  obtain ⟨t1, s1, v1⟩ := piece_pad (w := 14) (piece_num h1)
  obtain ⟨t2, s2, v2⟩ := piece_pad (w := 14) (piece_num h2)
  refine ⟨"[".toList ++ ((pad 14 (fmt 12 z.1) ++ ", ".toList) ++ (pad 14 (fmt 12 z.2) ++ "]".toList)), ?_, ?_⟩
  · refine ⟨.open_ :: commaSep [t1, t2] ++ [.close], ?_, isVal_arr (.cons v1 (.cons v2 .nil))⟩
    have := strong_open.append ((s1.appendStrong strong_comma (by decide) (by intro c hc; simp at hc; subst hc; simp)).append
      (s2.appendStrong strong_close (by decide) (by intro c hc; simp at hc; subst hc; simp)))
    simpa [commaSep] using this.seg
  · intro o
    simp [dumpAvgC, putReal, Out.put]

variable {A : Type}

theorem bdry_recordEnd (b : Bool) : recordEnd b ≠ [] ∧ Bdry (recordEnd b) := by
  cases b <;> exact ⟨by decide, by intro c hc; simp [recordEnd] at hc; subst hc; simp⟩

theorem dumpLoop_spec {avg : Out → A → Out} {J : A → Json} : ∀ (res : List (List Nat × A)) (o : Out),
    (∀ r ∈ res, r.1 ≠ [] ∧ AvgWriter avg J r.2) →
    ∃ x tss p, dumpLoop avg o res = some { text := o.text ++ x, prec := p } ∧ Strong x (commaSep tss) ∧
      List.Forall₂ IsVal tss (res.map fun r => .arr [sitesJson r.1, J r.2])
  | [], o, _ => ⟨[], [], o.prec, by simp [dumpLoop], strong_nil, .nil⟩
  | r :: res, o, h => by
    obtain ⟨hne, x2, ⟨t2, s2, v2⟩, e2⟩ := h r List.mem_cons_self
    obtain ⟨x1, t1, e1, s1, v1⟩ := dumpSites_spec (o := o.put "  [".toList) hne (fun n _ => piece_nat _ n)
    obtain ⟨x, tss, p, e, s3, v3⟩ := dumpLoop_spec (avg := avg) (J := J) res
      { text := (o.text ++ "  [".toList ++ x1 ++ x2) ++ recordEnd res.isEmpty, prec := 12 }
      (fun r hr => h r (List.mem_cons_of_mem _ hr))
    refine ⟨"  [".toList ++ (x1 ++ ((x2 ++ recordEnd res.isEmpty) ++ x)),
      (.open_ :: commaSep [t1, t2] ++ [.close]) :: tss, p, ?_, ?_,
      .cons (isVal_arr (.cons v1 (.cons v2 .nil))) v3⟩
    · rw [dumpLoop, e1]
      simp only [e2]
      refine (Eq.trans ?_ e).trans ?_
      · simp [Out.put]
      · simp
    · have := strong_open2.append (s1.append ((s2.appendStrong (strong_recordEnd res.isEmpty) (bdry_recordEnd _).1
        (bdry_recordEnd _).2).append s3))
      cases res with
      | nil => cases v3; simpa [commaSep] using this
      | cons r' res => cases v3; simpa [commaSep] using this

/-- C86: for every list of results with at least one site each, the text that `DumpMeasuRes` writes is a JSON text whose
value is the list of the results in order, each as its list of sites (exactly) and its average, given to 12 significant
digits. `J` is the form of an average, real or complex (`C86_real`, `C86_complex`). -/
theorem C86_file {avg : Out → A → Out} {J : A → Json} (res : List (List Nat × A))
    (sites : ∀ r ∈ res, r.1 ≠ []) (wr : ∀ r ∈ res, AvgWriter avg J r.2) :
    ∃ text, dumpRes avg res = some text ∧ readJson text = some (.arr (res.map fun r => .arr [sitesJson r.1, J r.2])) := by
  obtain ⟨x, tss, p, e, s, v⟩ := dumpLoop_spec (avg := avg) (J := J) res (Out.new.put "[\n".toList)
    (fun r hr => ⟨sites r hr, wr r hr⟩)
  refine ⟨"[\n".toList ++ (x ++ "]".toList), ?_, ?_⟩
  · rw [dumpRes, e]; simp [Out.put, Out.new]
  · have := (strong_openn.append (s.append strong_close)) []
    rw [readJson]
    simp only [List.append_nil] at this
    rw [this]
    simpa [tokens, flush] using parse_top v

/-- C86 for real averages. -/
theorem C86_real {fmt : Nat → R → List Char} {val : Nat → R → ℚ} (res : List (List Nat × R)) (sites : ∀ r ∈ res, r.1 ≠ [])
    (finite : ∀ r ∈ res, Prints fmt val 12 r.2) :
    ∃ text, dumpRes (dumpAvgR fmt) res = some text ∧
      readJson text = some (.arr (res.map fun r => .arr [sitesJson r.1, .num (val 12 r.2)])) :=
  C86_file res sites fun r hr => avgWriter_real (finite r hr)

/-- C86 for complex averages. -/
theorem C86_complex {fmt : Nat → R → List Char} {val : Nat → R → ℚ} (res : List (List Nat × (R × R)))
    (sites : ∀ r ∈ res, r.1 ≠ []) (finite : ∀ r ∈ res, Prints fmt val 12 r.2.1 ∧ Prints fmt val 12 r.2.2) :
    ∃ text, dumpRes (dumpAvgC fmt) res = some text ∧
      readJson text = some (.arr (res.map fun r =>
        .arr [sitesJson r.1, .arr [.num (val 12 r.2.1), .num (val 12 r.2.2)]])) :=
  C86_file (J := complexJson val) res sites fun r hr => avgWriter_complex (finite r hr).1 (finite r hr).2

/-- C86: a result without sites is undefined behaviour. -/
theorem C86_no_sites (avg : Out → A → Out) (a : A) (res : List (List Nat × A)) : dumpRes avg (([], a) :: res) = none := rfl

theorem dumpLoopT_spec {fmt : Nat → R → List Char} {val : Nat → R → ℚ} {avg : Out → A → Out} {J : A → Json} :
    ∀ (res : List (List Nat × List R × A)) (o : Out) (p : Nat), o.prec = p →
    (∀ r ∈ res, r.1 ≠ [] ∧ r.2.1 ≠ [] ∧ AvgWriter avg J r.2.2) →
    (∀ r ∈ res.head?, ∀ t ∈ r.2.1, Prints fmt val p t) → (∀ r ∈ res.tail, ∀ t ∈ r.2.1, Prints fmt val 12 t) →
    ∃ x tss p', dumpLoopT fmt avg o res = some { text := o.text ++ x, prec := p' } ∧ Strong x (commaSep tss) ∧
      List.Forall₂ IsVal tss (res.zipIdx.map fun r =>
        .arr [sitesJson r.1.1, .arr (r.1.2.1.map fun t => .num (val (if r.2 = 0 then p else 12) t)), J r.1.2.2])
  | [], o, _, _, _, _, _ => ⟨[], [], o.prec, by simp [dumpLoopT], strong_nil, .nil⟩
  | r :: res, o, p, hp, h, hf, ht => by
    obtain ⟨hne, hnt, x2, ⟨t2, s2, v2⟩, e2⟩ := h r List.mem_cons_self
    obtain ⟨x1, t1, e1, s1, v1⟩ := dumpSites_spec (o := o.put "  [".toList) hne (fun n _ => piece_nat _ n)
    obtain ⟨y1, u1, f1, g1, w1⟩ := dumpSites_spec (sh := fmt) (J := fun t => .num (val p t))
      (o := { text := o.text ++ "  [".toList ++ x1, prec := o.prec }) hnt
      (fun t htm => piece_num (by simp only [hp]; exact hf r rfl t htm))
    obtain ⟨x, tss, p', e, s3, v3⟩ := dumpLoopT_spec (fmt := fmt) (val := val) (avg := avg) (J := J) res
      { text := (o.text ++ "  [".toList ++ x1 ++ y1 ++ x2) ++ recordEnd res.isEmpty, prec := 12 } 12 rfl
      (fun r hr => h r (List.mem_cons_of_mem _ hr))
      (by
        intro r' hr'
        refine ht r' ?_
        cases res with
        | nil => simp at hr'
        | cons a b => simp at hr'; simp [hr'])
      (by
        intro r' hr'
        exact ht r' (List.mem_of_mem_tail hr'))
    have v3' : List.Forall₂ IsVal tss ((res.zipIdx 1).map fun r =>
        .arr [sitesJson r.1.1, .arr (r.1.2.1.map fun t => .num (val (if r.2 = 0 then p else 12) t)), J r.1.2.2]) := by
      have : ((res.zipIdx 1).map fun r : (List Nat × List R × A) × Nat =>
          Json.arr [sitesJson r.1.1, .arr (r.1.2.1.map fun t => .num (val (if r.2 = 0 then p else 12) t)), J r.1.2.2]) =
          res.zipIdx.map fun r =>
          .arr [sitesJson r.1.1, .arr (r.1.2.1.map fun t => .num (val (if r.2 = 0 then 12 else 12) t)), J r.1.2.2] := by
        apply List.ext_getElem?
        intro i
        simp only [List.getElem?_map, List.getElem?_zipIdx, Option.map_map]
        cases res[i]? with
        | none => rfl
        | some a => simp [show 1 + i ≠ 0 by omega]
      rw [this]; exact v3
    refine ⟨"  [".toList ++ (x1 ++ (y1 ++ ((x2 ++ recordEnd res.isEmpty) ++ x))),
      (.open_ :: commaSep [t1, u1, t2] ++ [.close]) :: tss, p', ?_, ?_, ?_⟩
    · rw [dumpLoopT, e1]
      simp only [Out.put]
      rw [f1]
      simp only [e2]
      refine Eq.trans ?_ (e.trans ?_)
      · simp
      · simp
    · have := strong_open2.append (s1.append (g1.append ((s2.appendStrong (strong_recordEnd res.isEmpty) (bdry_recordEnd _).1
        (bdry_recordEnd _).2).append s3)))
      cases res with
      | nil => cases v3; simpa [commaSep] using this
      | cons r' res => cases v3; simpa [commaSep] using this
    · rw [List.zipIdx_cons, List.map_cons]
      exact .cons (isVal_arr (.cons v1 (.cons (by simpa using w1) (.cons v2 .nil)))) v3'

/-- C86 for dynamical correlations: the value of the file is the list of the results in order, each as sites, times and
average. The times of the first result are given to 6 significant digits only, since the precision of the stream is
first set when an average is written; those of all others to 12. -/
theorem C86_dynamic {fmt : Nat → R → List Char} {val : Nat → R → ℚ} {avg : Out → A → Out} {J : A → Json}
    (res : List (List Nat × List R × A)) (sites : ∀ r ∈ res, r.1 ≠ [] ∧ r.2.1 ≠ []) (wr : ∀ r ∈ res, AvgWriter avg J r.2.2)
    (finite : ∀ r ∈ res, ∀ t ∈ r.2.1, Prints fmt val 6 t ∧ Prints fmt val 12 t) :
    ∃ text, dumpResT fmt avg res = some text ∧ readJson text = some (.arr (res.zipIdx.map fun r =>
      .arr [sitesJson r.1.1, .arr (r.1.2.1.map fun t => .num (val (if r.2 = 0 then 6 else 12) t)), J r.1.2.2])) := by
  obtain ⟨x, tss, p, e, s, v⟩ := dumpLoopT_spec (fmt := fmt) (val := val) (avg := avg) (J := J) res
    (Out.new.put "[\n".toList) 6 rfl (fun r hr => ⟨(sites r hr).1, (sites r hr).2, wr r hr⟩)
    (fun r hr t ht => (finite r (List.mem_of_head? hr) t ht).1)
    (fun r hr t ht => (finite r (List.mem_of_mem_tail hr) t ht).2)
  refine ⟨"[\n".toList ++ (x ++ "]".toList), ?_, ?_⟩
  · rw [dumpResT, e]; simp [Out.put, Out.new]
  · have := (strong_openn.append (s.append strong_close)) []
    rw [readJson]
    simp only [List.append_nil] at this
    rw [this]
    simpa [tokens, flush] using parse_top v

end

/-! ### The files of the measurements -/

section
open Verif.Mps
variable {σ K R : Type} [CommRing K] [StarRing K] [Fintype σ] [DecidableEq σ] [DecidableEq K]
  {qr svd : Ten σ K → Ten σ K × Mat K}

/-- C86: the file that `MeasureOneSiteOp` writes for operator `j` of a list, read as JSON, gives for every site the site and
the expectation value of the operator there. `parts` are real and imaginary part. -/
theorem C86_one_site_file (H : QRSpec qr) (H' : SVDSpec svd) {n : Nat} {cs : List (Call σ K)} {m : FMps σ K}
    (hist : FMps.history qr svd n cs = .ok m) (noLoad : NoStale cs m)
    {ts : List (Ten σ K)} (full : m.slots = ts.map some) (link : Linked ts) (ops : List (Op σ K)) {j : Nat} {op : Op σ K}
    (hj : ops[j]? = some op) {fmt : Nat → R → List Char} {val : Nat → R → ℚ} (parts : K → R × R)
    (finite : ∀ x, Prints fmt val 12 (parts x).1 ∧ Prints fmt val 12 (parts x).2) :
    ∃ m' rows text, measureOneSite qr svd m ops = .ok (m', rows) ∧
      dumpRes (fun o x => dumpAvgC fmt o (parts x)) (oneSiteRes 0 rows j) = some text ∧
      readJson text = some (.arr ((List.range n).map fun i => .arr [sitesJson [i],
        complexJson val (parts (expval ts fun k => if k = i then op else idOp))])) := by
  obtain ⟨m', -, e, -⟩ := C50_one_site_values H H' hist noLoad full link ops
  obtain ⟨text, h1, h2⟩ := C86_file (avg := fun o x => dumpAvgC fmt o (parts x)) (J := fun x => complexJson val (parts x))
    (oneSiteRes 0 ((List.range n).map fun i => ops.map fun op => expval ts (fun k => if k = i then op else idOp)) j)
    (by intro r hr; obtain ⟨x, -, rfl⟩ := List.mem_map.1 hr; simp)
    (by
      intro r _
      obtain ⟨x, h1, h2⟩ := avgWriter_complex (fmt := fmt) (val := val) (finite r.2).1 (finite r.2).2
      exact ⟨x, h1, h2⟩)
  refine ⟨m', _, text, e, h1, h2.trans ?_⟩
  congr 2
  apply List.ext_getElem?
  intro i
  by_cases hi : i < n
  · simp [oneSiteRes, List.getElem?_range hi, hj]
  · simp [oneSiteRes, List.getElem?_eq_none (l := List.range n) (i := i) (by simpa using hi)]

/-- C86: the file that `MeasureMultiSiteOp` writes gives, for every event in order, its sites and the expectation value of its
operators. -/
theorem C86_multi_site_file (H : QRSpec qr) (H' : SVDSpec svd) {n : Nat} {cs : List (Call σ K)} {m : FMps σ K}
    (hist : FMps.history qr svd n cs = .ok m) (noLoad : NoStale cs m)
    {ts : List (Ten σ K)} (full : m.slots = ts.map some) (link : Linked ts) (evs : List (Event σ K))
    (valid : ∀ e ∈ evs, e.Valid n) (O : Event σ K → Nat → Op σ K) (places : ∀ e ∈ evs, e.Places (O e))
    {fmt : Nat → R → List Char} {val : Nat → R → ℚ} (parts : K → R × R)
    (finite : ∀ x, Prints fmt val 12 (parts x).1 ∧ Prints fmt val 12 (parts x).2) :
    ∃ m' rs text, measureMulti qr svd m (evs.map fun e => (e.phys, e.inst, e.sites)) = .ok (m', rs) ∧
      dumpRes (fun o x => dumpAvgC fmt o (parts x)) rs = some text ∧
      readJson text = some (.arr (evs.map fun e => .arr [sitesJson e.sites, complexJson val (parts (expval ts (O e)))])) := by
  obtain ⟨m', -, rs, e, -, -, l, g⟩ := C51_multi_site_values H H' hist noLoad full link evs valid
  have hrs : rs = evs.map fun e => (e.sites, expval ts (O e)) := by
    apply List.ext_getElem?
    intro k
    rw [List.getElem?_map]
    cases hk : evs[k]? with
    | none => rw [List.getElem?_eq_none_iff] at hk; simpa [l] using hk
    | some x => exact g k x _ hk (places x (List.mem_of_getElem? hk))
  obtain ⟨text, h1, h2⟩ := C86_file (avg := fun o x => dumpAvgC fmt o (parts x)) (J := fun x => complexJson val (parts x))
    rs (by
      intro r hr
      rw [hrs] at hr
      obtain ⟨x, hx, rfl⟩ := List.mem_map.1 hr
      have := (valid x hx).two
      intro h0
      simp only at h0
      rw [h0] at this; simp at this)
    (by
      intro r _
      obtain ⟨x, h1, h2⟩ := avgWriter_complex (fmt := fmt) (val := val) (finite r.2).1 (finite r.2).2
      exact ⟨x, h1, h2⟩)
  refine ⟨m', rs, text, e, h1, h2.trans ?_⟩
  rw [hrs, List.map_map]
  rfl

end

/-! ### A concrete file -/

/-- A stand-in for the number printing of the library, exact on natural numbers. -/
def fmtNat (_ n : Nat) : List Char := Nat.toDigits 10 n

example : ∀ p n, Prints fmtNat (fun _ n => (n : ℚ)) p n := fun _ n => jsonNumber_nat n

example : dumpRes (dumpAvgR fmtNat) [([0, 12], 5), ([3], 40)] =
    some "[\n  [[0, 12],              5],\n  [[3],             40]\n]".toList := by decide +kernel

example : dumpRes (dumpAvgC fmtNat) [([7], (5, 6))] =
    some "[\n  [[7], [             5,              6]]\n]".toList := by decide +kernel

example : jsonNumber "-1.5e-03".toList = some (-(3 : ℚ) / 2000) := by
  decide +kernel

example : jsonNumber "nan".toList = none ∧ jsonNumber "inf".toList = none ∧ jsonNumber "012".toList = none := by
  decide +kernel

end Verif.Props
