import Verif.Lemmas.MaxLyndon
import Verif.Props.Bbwt

/-! # Evaluating the bijective BWT in the kernel -/

namespace Verif.Max

open Verif Spec Model Par

section fast
variable {α : Type} [LinearOrder α]

/-- `bbwtNaive` without the check that no comparison fails. -/
def bbwtFast (text : List α) : Res (List α) := do
  let n := text.length
  let factors ← duval text
  let conjs ← conjugates factors
  let conjs := stableSort (fun a b => notGt (conjCmp text a b)) conjs
  let c0 ← rd text 0
  forRange 0 n (List.replicate n c0) (fun i bbwt => do
    let c ← rd conjs i
    let p ← conjPosition c
    let x ← rd text p
    wr bbwt i x)

theorem bbwtNaive_eq_fast {text : List α} (h : text ≠ []) : bbwtNaive text = bbwtFast text := by
  obtain ⟨b, hb⟩ := bbwt_total h
  have h0 := hb
  rw [hb]
  simp only [bbwtNaive, bbwtFast] at h0 ⊢
  cases hd : duval text with
  | error e => rw [hd] at h0; simp at h0
  | ok f =>
    rw [hd] at h0; simp only [ok_bind] at h0 ⊢
    cases hc : conjugates f with
    | error e => rw [hc] at h0; simp at h0
    | ok c =>
      rw [hc] at h0; simp only [ok_bind] at h0 ⊢
      unfold sortByR at h0
      unfold assertR at h0
      split at h0
      · simp only [ok_bind] at h0
        split at h0
        · exact h0.symm
        · simp at h0
      · simp at h0

end fast

/-- The number of runs, computed by `bbwtFast`. -/
def fastRuns (u : List UInt8) : Nat :=
  match bbwtFast u with
  | .ok b => numberOfRuns (sliceReader b)
  | .error _ => 0

theorem fastRuns_eq {u : List UInt8} (h : u ≠ []) : bbwtRuns u = fastRuns u := by
  rw [bbwtRuns, fastRuns, bbwtNaive_eq_fast h]
  rfl

/-- `0^38 11` and `0^37 101`. -/
def word3 : List Nat := List.replicate 38 0 ++ [1, 1]
def word5 : List Nat := List.replicate 37 0 ++ [1, 0, 1]

set_option maxRecDepth 100000

theorem eval3 : fastRuns (word3.map UInt8.ofNat) = 4 ∧
    fastRuns (rot 38 (word3.map UInt8.ofNat)) = 2 := by decide +kernel

theorem eval5 : fastRuns (word5.map UInt8.ofNat) = 4 ∧
    fastRuns (rot 35 (word5.map UInt8.ofNat)) = 3 := by decide +kernel

theorem eval5_all : ∀ u ∈ conjs word5, 3 ≤ fastRuns u := by decide +kernel

theorem lyndon3 : IsLyndon (word3.map UInt8.ofNat) := by decide +kernel

theorem lyndon5 : IsLyndon (word5.map UInt8.ofNat) := by decide +kernel

/-- The first words of the generator. -/
def firstWords : List (List Nat) :=
  [[0], List.replicate 39 0 ++ [1], List.replicate 38 0 ++ [1], word3, List.replicate 37 0 ++ [1], word5]

theorem eval_first : runIter LyndonWordGenerator.next 6 (LyndonWordGenerator.new MAXW 2) =
    .ok (firstWords.map some) := by decide +kernel

theorem lyndon_runs {w : List UInt8} (h : IsLyndon w) : bwtRuns w = bbwtRuns w := by
  obtain ⟨b, h1, h2, _⟩ := Props.C18_bbwt_lyndon w h
  rw [bwtRuns, bbwtRuns, h1, h2]

theorem mem_conjs {w : List Nat} {i : Nat} (h : i < w.length) : rot i (w.map UInt8.ofNat) ∈ conjs w := by
  simp only [conjs, List.mem_map, List.mem_range, List.length_map]
  exact ⟨i, h, rfl⟩

theorem gain3 : 2 ≤ gain word3 := by
  have hne : word3 ≠ [] := by decide
  have h1 := le_foldl_max (fun u => bwtRuns (word3.map UInt8.ofNat) - bbwtRuns u)
    (mem_conjs (w := word3) (i := 38) (by decide))
  have h2 : bwtRuns (word3.map UInt8.ofNat) = 4 := by
    rw [lyndon_runs lyndon3, fastRuns_eq lyndon3.1, eval3.1]
  have h3 : bbwtRuns (rot 38 (word3.map UInt8.ofNat)) = 2 := by
    rw [fastRuns_eq (conjs_ne hne _ (mem_conjs (by decide))), eval3.2]
  simp only [h3, h2] at h1
  simp only [gain, h2]
  exact h1

theorem bwt5 : bwtRuns (word5.map UInt8.ofNat) = 4 := by
  rw [lyndon_runs lyndon5, fastRuns_eq lyndon5.1, eval5.1]

theorem runs5 : ∀ u ∈ conjs word5, 3 ≤ bbwtRuns u := by
  intro u hu
  rw [fastRuns_eq (conjs_ne (by decide) u hu)]
  exact eval5_all u hu

theorem pos5 : ∃ u ∈ conjs word5, bbwtRuns u < bwtRuns (word5.map UInt8.ofNat) :=
  ⟨_, mem_conjs (w := word5) (i := 35) (by decide), by
    rw [bwt5, fastRuns_eq (conjs_ne (by decide) _ (mem_conjs (by decide))), eval5.2]; omega⟩

end Verif.Max
