import Verif.Model.GenArtificial
import Verif.Props.Mains

/-! # C69 without an output file, and C91: the files made by `gen_artificial.sh` -/

namespace Verif.Props

open Verif Spec Model

/-- C69 without `-o`: for whatever name and order the word is computed, it is appended to the standard output, and no
file changes; if computing it panics, nothing at all is printed. -/
theorem C69_stdout (creatable : String → Bool) (est : ℝ) (fuel : Nat) (name : WordName) (k : Nat) (w : World) :
    (∀ t, wordOf est fuel name k = .ok t → ∃ w', wordMain creatable est fuel name k none w = (w', .ok ()) ∧
      Printed w t w') ∧
    (∀ e, wordOf est fuel name k = .error e → wordMain creatable est fuel name k none w = (w, .error e)) := by
  constructor
  · intro t h
    refine ⟨{ w with stdout := w.stdout ++ t }, ?_, rfl, rfl⟩
    simp only [wordMain, openOut, h, writeOut]
  · intro e h
    simp only [wordMain, openOut, h]

theorem redirectWord_ok {creatable : String → Bool} {est : Nat → ℝ} {fuel : Nat} {name : WordName} {k : Nat}
    {path : String} {w : World} {t : List UInt8} (hc : creatable path = true)
    (h : wordOf (est k) fuel name k = .ok t) :
    ∃ w', redirectWord creatable est fuel name k path w = (w', .ok ()) ∧ Wrote w path t w' := by
  refine ⟨((w.set path []).set path t), ?_, rfl, by simp [World.set], fun n hn => by simp [World.set, hn]⟩
  simp only [redirectWord, openOut, hc, if_true, wordMain, h, writeOut, List.nil_append]
  rfl

theorem runAll_ok {ι : Type} (path : ι → String) (t : ι → List UInt8) (cmd : ι → World → World × Res Unit) :
    ∀ (L : List ι) (w : World), (∀ j ∈ L, ∀ w, ∃ w', cmd j w = (w', .ok ()) ∧ Wrote w (path j) (t j) w') →
      (L.map path).Nodup → ∃ w', runAll (L.map cmd) w = (w', .ok ()) ∧ w'.stdout = w.stdout ∧
        (∀ j ∈ L, w'.files (path j) = some (t j)) ∧ ∀ n, (∀ j ∈ L, n ≠ path j) → w'.files n = w.files n := by
  intro L
  induction L with
  | nil => exact fun w _ _ => ⟨w, rfl, rfl, by simp, fun _ _ => rfl⟩
  | cons j L ih =>
    intro w h hn
    rw [List.map_cons, List.nodup_cons] at hn
    obtain ⟨w1, h1, h2, h3, h4⟩ := h j (by simp) w
    obtain ⟨w2, g1, g2, g3, g4⟩ := ih w1 (fun i hi => h i (by simp [hi])) hn.2
    have hj : ∀ i ∈ L, path j ≠ path i := fun i hi e => hn.1 (e ▸ List.mem_map_of_mem hi)
    refine ⟨w2, ?_, g2.trans h2, ?_, ?_⟩
    · rw [List.map_cons, runAll, h1]; exact g1
    · intro i hi
      rcases List.mem_cons.1 hi with rfl | hi
      · rw [g4 _ hj, h3]
      · exact g3 i hi
    · intro n hne
      rw [g4 n (fun i hi => hne i (by simp [hi])), h4 n (hne j (by simp))]

theorem artificialSuffixes_nodup :
    (artificialJobs.map (fun j => ("/" ++ j.1 ++ "." ++ seqToken j.2.2).toList)).Nodup := by
  have htok : ∀ k < 21, (seqToken k).toList.length = 2 := by decide +kernel
  have hinj : ∀ k < 21, ∀ k' < 21, (seqToken k).toList = (seqToken k').toList → k = k' := by decide +kernel
  have hnames : (artificialNames.map fun p => p.1.toList).Nodup := by decide +kernel
  have hjobs : artificialJobs.Nodup := by
    rw [artificialJobs, List.nodup_flatMap]
    refine ⟨fun k _ => ?_, ?_⟩
    · rw [List.nodup_map_iff_inj_on]
      · intro p hp q hq h
        simp only [Prod.mk.injEq] at h
        exact Prod.ext h.1 h.2.1
      · exact List.Nodup.of_map _ hnames
    · refine List.nodup_range.imp fun {k k'} hk => ?_
      simp only [Function.onFun]
      rw [List.disjoint_iff_ne]
      rintro a ha b hb rfl
      obtain ⟨p, -, rfl⟩ := List.mem_map.1 ha
      obtain ⟨q, -, h⟩ := List.mem_map.1 hb
      simp only [Prod.mk.injEq] at h
      exact hk h.2.2.symm
  have hmem : ∀ j ∈ artificialJobs, (j.1, j.2.1) ∈ artificialNames ∧ j.2.2 < 21 := by
    intro j hj
    obtain ⟨k, hk, hj⟩ := List.mem_flatMap.1 hj
    obtain ⟨p, hp, rfl⟩ := List.mem_map.1 hj
    exact ⟨hp, List.mem_range.1 hk⟩
  rw [List.nodup_map_iff_inj_on hjobs]
  intro i hi j hj h
  obtain ⟨hi1, hi2⟩ := hmem i hi
  obtain ⟨hj1, hj2⟩ := hmem j hj
  simp only [String.toList_append] at h
  obtain ⟨h1, h2⟩ := List.append_inj' h (by rw [htok _ hi2, htok _ hj2])
  have h1 := List.append_cancel_left (List.append_cancel_right h1)
  have hn := List.inj_on_of_nodup_map hnames hi1 hj1 h1
  simp only [Prod.mk.injEq] at hn
  exact Prod.ext hn.1 (Prod.ext hn.2 (hinj _ hi2 _ hj2 h2))

theorem artificialPaths_nodup (folder : String) :
    (artificialJobs.map (fun j => artificialPath folder j.1 j.2.2)).Nodup := by
  have h := artificialSuffixes_nodup
  have e : artificialJobs.map (fun j => artificialPath folder j.1 j.2.2) =
      (artificialJobs.map (fun j => ("/" ++ j.1 ++ "." ++ seqToken j.2.2).toList)).map
        (fun l => String.ofList (folder.toList ++ l)) := by
    rw [List.map_map]
    apply List.map_congr_left
    intro j _
    apply String.toList_inj.1
    simp [artificialPath]
  rw [e]
  refine h.map ?_
  intro a b hab
  have := congrArg String.toList hab
  simpa using this

theorem iter_length_le {f : UInt8 → List UInt8} (h : ∀ c, (f c).length ≤ 3) (x : UInt8) :
    ∀ k, (iter f k [x]).length ≤ 3 ^ k := by
  intro k
  induction k with
  | zero => simp [iter]
  | succ k ih =>
    have : ∀ l : List UInt8, (l.flatMap f).length ≤ 3 * l.length := by
      intro l
      induction l with
      | nil => simp
      | cons c l ihl =>
        have := h c
        simp only [List.flatMap_cons, List.length_append, List.length_cons]
        omega
    rw [iter, pow_succ]
    have := this (iter f k [x])
    omega

/-- Every word of `gen_artificial.sh` is computed without a panic. -/
theorem wordOf_artificial {est : Nat → ℝ} (hest : ∀ k ≤ 20, (Nat.fib (k + 2) : ℝ) - 1 ≤ est k ∧ est k < 2 ^ 63 - 2)
    {fuel : Nat} (hf : 3 ^ 20 < fuel) {k : Nat} (hk : k ≤ 20) {p : String × WordName} (hp : p ∈ artificialNames) :
    ∃ t, wordOf (est k) fuel p.2 k = .ok t := by
  have h3 : 3 ^ k ≤ 3 ^ 20 := Nat.pow_le_pow_right (by omega) hk
  have h2 : 2 ^ (k + 1) ≤ 2 ^ 21 := Nat.pow_le_pow_right (by omega) (by omega)
  have ht := iter_length_le (f := tribMor) (by intro c; unfold tribMor; split <;> [skip; split] <;> simp) 97 k
  have hv := iter_length_le (f := vtmMor) (by intro c; unfold vtmMor; split <;> [skip; split] <;> simp) 97 k
  have htl : tribNum k < fuel := by rw [← tribWord_length, tribWord_eq]; omega
  simp only [artificialNames, List.mem_cons, List.not_mem_nil, or_false] at hp
  rcases hp with rfl | rfl | rfl | rfl | rfl | rfl | rfl | rfl | rfl | rfl
  · exact ⟨_, (C50_tribonacci_word k (by omega) fuel htl).1⟩
  · exact ⟨_, C51_vtm_word_partial k (by omega) fuel (by omega)⟩
  · exact ⟨_, C42_fibonacci_word k (by omega) _ (hest k hk).1 (hest k hk).2⟩
  · obtain ⟨t, h1, -⟩ := C44_kolakoski
    exact ⟨_, h1 k (by omega)⟩
  · exact ⟨_, (C43_thuemorse_morphism k (by omega)).1⟩
  · obtain ⟨t, h1, -⟩ := C45_period_doubling k (by omega)
    exact ⟨_, h1⟩
  · obtain ⟨t, h1, -⟩ := C46_paperfolding k (by omega)
    exact ⟨_, h1⟩
  · exact ⟨_, C46_quaternary k (by omega)⟩
  · obtain ⟨t, h1, -⟩ := C47_binary_debruijn_partial k
    exact ⟨_, h1 fuel (by omega)⟩
  · obtain ⟨t, h1, -⟩ := C49_power2_partial k (by omega)
    exact ⟨_, h1⟩

/-- C91: if the folder is writable, `gen_artificial.sh folder` runs to its end whatever the files were before, and
then `folder/name.k`, with `k` in two digits from `00` to `20`, holds the word of order `k`:
the Tribonacci, ternary Thue-Morse (vtm), Fibonacci, Thue-Morse, period doubling and quaternary paper folding words are
the iterates of their morphisms, the Kolakoski words describe each other's runs, the paper folding word has its letters
given by the odd parts, `power2` marks the powers of two (but for its last letter, see C49), `binary-de-brujin` contains
no word of length `k + 1` twice (see C47).  All other files, and the standard output of the script, are unchanged.

`est k` is the float estimate of the Fibonacci number, only required to be at least `F(k+2) - 1`; `fuel` bounds loop
iterations. -/
theorem C91_gen_artificial (creatable : String → Bool) (folder : String) (w : World) (est : Nat → ℝ) (fuel : Nat)
    (hest : ∀ k ≤ 20, (Nat.fib (k + 2) : ℝ) - 1 ≤ est k ∧ est k < 2 ^ 63 - 2) (hf : 3 ^ 20 < fuel)
    (hc : ∀ n, (folder ++ "/").toList <+: n.toList → creatable n = true) :
    let file := fun (name : String) (k : Nat) =>
      folder ++ "/" ++ name ++ "." ++ (if k < 10 then "0" else "") ++ toString k
    ∃ w', genArtificial creatable est fuel folder w = (w', .ok ()) ∧ w'.stdout = w.stdout ∧
      (∀ k ≤ 20,
        w'.files (file "tribonacci" k) = some (tribWord k) ∧
        w'.files (file "vtm" k) = some (iter vtmMor k [97]) ∧
        w'.files (file "fibonacci" k) = some (fibWord k) ∧
        w'.files (file "thue-morse" k) = some (iter tmMor k [97]) ∧
        w'.files (file "period-doubling" k) = some (iter pdMor k [97]) ∧
        w'.files (file "quaternary-paper-folding" k) = some (iter paperMor k [100]) ∧
        (∃ t, w'.files (file "paper-folding" k) = some t ∧ t.length = 2 ^ (k + 1) ∧
          ∀ p (h : p < t.length), (t[p] = 49 ∨ t[p] = 48) ∧ (t[p] = 49 ↔ ∃ e m, p + 1 = 2 ^ e * (4 * m + 1))) ∧
        (∃ t, w'.files (file "binary-de-brujin" k) = some t ∧ (∀ c ∈ t, c = 97 ∨ c = 98) ∧ k + 2 ≤ t.length ∧
          t.length ≤ 2 ^ (k + 1) ∧
          ∀ i j, i < t.length → j < t.length → (rot i t).take (k + 1) = (rot j t).take (k + 1) → i = j) ∧
        (∃ t, w'.files (file "power2" k) = some t ∧ t.length = 2 ^ k ∧
          ∀ j, 1 ≤ j → j < 2 ^ k → (t[j - 1]? = some 97 ∨ t[j - 1]? = some 98) ∧
            (t[j - 1]? = some 98 ↔ ∃ e, j = 2 ^ e))) ∧
      (w'.files (file "kolakoski" 0) = some [98, 98] ∧ ∀ k < 20, ∃ s t, w'.files (file "kolakoski" k) = some s ∧
        w'.files (file "kolakoski" (k + 1)) = some t ∧
        (t.splitBy (· == ·)).map List.length = s.map (fun c => if c = 97 then 1 else 2)) ∧
      ∀ n, (∀ name ∈ ["tribonacci", "vtm", "fibonacci", "kolakoski", "thue-morse", "period-doubling", "paper-folding",
          "quaternary-paper-folding", "binary-de-brujin", "power2"], ∀ k ≤ 20, n ≠ file name k) →
        w'.files n = w.files n := by
  intro file
  have hfile : ∀ name k, artificialPath folder name k = file name k := by
    intro name k
    apply String.toList_inj.1
    by_cases h : k < 10 <;> simp [artificialPath, file, seqToken, h]
  have hpre : ∀ name k, (folder ++ "/").toList <+: (artificialPath folder name k).toList := by
    intro name k
    simp only [artificialPath, String.toList_append, List.append_assoc]
    exact ⟨name.toList ++ (".".toList ++ (seqToken k).toList), by simp⟩
  have hmem : ∀ j : String × WordName × Nat, j ∈ artificialJobs ↔ (j.1, j.2.1) ∈ artificialNames ∧ j.2.2 ≤ 20 := by
    rintro ⟨a, b, k⟩
    simp only [artificialJobs, List.mem_flatMap, List.mem_range, List.mem_map, Prod.mk.injEq]
    constructor
    · rintro ⟨k', h1, p, h2, rfl, rfl, rfl⟩
      exact ⟨h2, by omega⟩
    · rintro ⟨h1, h2⟩
      exact ⟨k, by omega, _, h1, rfl, rfl, rfl⟩
  let val := fun j : String × WordName × Nat => match wordOf (est j.2.2) fuel j.2.1 j.2.2 with
    | .ok t => t
    | .error _ => []
  obtain ⟨w', g1, g2, g3, g4⟩ := runAll_ok (fun j : String × WordName × Nat => artificialPath folder j.1 j.2.2) val
    (fun j => redirectWord creatable est fuel j.2.1 j.2.2 (artificialPath folder j.1 j.2.2)) artificialJobs w
    (by
      intro j hj w
      obtain ⟨t, ht⟩ := wordOf_artificial hest hf ((hmem j).1 hj).2 ((hmem j).1 hj).1
      refine redirectWord_ok (hc _ (hpre _ _)) ?_
      have ht' : wordOf (est j.2.2) fuel j.2.1 j.2.2 = .ok t := ht
      simp only [val, ht'])
    (artificialPaths_nodup folder)
  have key : ∀ name nm k t, (name, nm) ∈ artificialNames → k ≤ 20 → wordOf (est k) fuel nm k = .ok t →
      w'.files (file name k) = some t := by
    intro name nm k t h1 h2 h3
    have := g3 (name, nm, k) ((hmem _).2 ⟨h1, h2⟩)
    rw [← hfile, this]
    simp only [val, h3]
  refine ⟨w', g1, g2, ?_, ?_, ?_⟩
  · intro k hk
    have h3 : 3 ^ k ≤ 3 ^ 20 := Nat.pow_le_pow_right (by omega) hk
    have h2 : 2 ^ (k + 1) ≤ 2 ^ 21 := Nat.pow_le_pow_right (by omega) (by omega)
    have ht := iter_length_le (f := tribMor) (by intro c; unfold tribMor; split <;> [skip; split] <;> simp) 97 k
    have hv := iter_length_le (f := vtmMor) (by intro c; unfold vtmMor; split <;> [skip; split] <;> simp) 97 k
    have htl : tribNum k < fuel := by rw [← tribWord_length, tribWord_eq]; omega
    refine ⟨key _ .tribonacci _ _ (by simp [artificialNames]) hk (C50_tribonacci_word k (by omega) fuel htl).1,
      key _ .vtm _ _ (by simp [artificialNames]) hk (C51_vtm_word_partial k (by omega) fuel (by omega)),
      key _ .fibonacci _ _ (by simp [artificialNames]) hk
        (C42_fibonacci_word k (by omega) _ (hest k hk).1 (hest k hk).2),
      key _ .thueMorse _ _ (by simp [artificialNames]) hk (C43_thuemorse_morphism k (by omega)).1, ?_,
      key _ .quaternaryPaperFolding _ _ (by simp [artificialNames]) hk (C46_quaternary k (by omega)), ?_, ?_, ?_⟩
    · obtain ⟨t, h1, h2, -⟩ := C45_period_doubling k (by omega)
      subst h2
      exact key _ .periodDoubling _ _ (by simp [artificialNames]) hk h1
    · obtain ⟨t, h1, h2, h3⟩ := C46_paperfolding k (by omega)
      exact ⟨t, key _ .paperFolding _ _ (by simp [artificialNames]) hk h1, h2, h3⟩
    · obtain ⟨t, h1, h2⟩ := C47_binary_debruijn_partial k
      exact ⟨t, key _ .binaryDeBrujin _ _ (by simp [artificialNames]) hk (h1 fuel (by omega)), h2⟩
    · obtain ⟨t, h1, h2, h3⟩ := C49_power2_partial k (by omega)
      exact ⟨t, key _ .power2 _ _ (by simp [artificialNames]) hk h1, h2, h3⟩
  · obtain ⟨t, h1, h2, h3⟩ := C44_kolakoski
    have hk : ∀ k ≤ 20, w'.files (file "kolakoski" k) = some (t k) := fun k hk =>
      key _ .kolakoski _ _ (by simp [artificialNames]) hk (h1 k (by omega))
    exact ⟨h2 ▸ hk 0 (by omega), fun k hk' => ⟨t k, t (k + 1), hk k (by omega), hk (k + 1) (by omega), (h3 k).2.2.2⟩⟩
  · intro n hn
    refine g4 n (fun j hj => ?_)
    obtain ⟨h1, h2⟩ := (hmem j).1 hj
    rw [hfile]
    refine hn j.1 ?_ j.2.2 h2
    have : j.1 ∈ artificialNames.map Prod.fst := List.mem_map_of_mem (f := Prod.fst) h1
    simpa [artificialNames] using this

/-- The script stops at the first order or name that fails: if the first file cannot be created, nothing happens. -/
theorem C91_unwritable (creatable : String → Bool) (folder : String) (w : World) (est : Nat → ℝ) (fuel : Nat)
    (hc : creatable (folder ++ "/tribonacci.00") = false) :
    ∃ e, genArtificial creatable est fuel folder w = (w, .error e) := by
  have hp : artificialPath folder "tribonacci" 0 = folder ++ "/tribonacci.00" := by
    apply String.toList_inj.1
    simp [artificialPath, seqToken]
  have hj : ∃ rest, artificialJobs = ("tribonacci", .tribonacci, 0) :: rest := ⟨_, rfl⟩
  obtain ⟨rest, hj⟩ := hj
  refine ⟨.unwrap, ?_⟩
  simp only [genArtificial, hj, List.map_cons, runAll, redirectWord, hp, openOut, hc, Bool.false_eq_true, if_false]

example (w : World) := C91_unwritable (fun _ => false) "d" w (fun _ => 0) 10 rfl

/-- The hypotheses are met: exact estimates, every file creatable. -/
example : ∃ w', genArtificial (fun _ => true) (fun k => (Nat.fib (k + 2) : ℝ)) (3 ^ 20 + 1) "out" exampleWorld =
    (w', .ok ()) ∧ w'.files "out/fibonacci.03" = some [97, 98, 97, 97, 98] ∧
    w'.files "out/kolakoski.00" = some [98, 98] ∧ w'.files "f" = some [97, 97, 98] := by
  obtain ⟨w', h1, -, h2, h3, h4⟩ := C91_gen_artificial (fun _ => true) "out" exampleWorld
    (fun k => (Nat.fib (k + 2) : ℝ)) (3 ^ 20 + 1) (by
      intro k hk
      refine ⟨by linarith, ?_⟩
      have : Nat.fib (k + 2) ≤ Nat.fib 22 := Nat.fib_mono (by omega)
      have h22 : Nat.fib 22 = 17711 := by decide +kernel
      have : (Nat.fib (k + 2) : ℝ) ≤ 17711 := by exact_mod_cast h22 ▸ this
      norm_num
      linarith) (by omega) (fun _ _ => rfl)
  exact ⟨w', h1, (h2 3 (by omega)).2.2.1, h3.1, h4 "f" (by
    intro name _ k _ h
    have := congrArg (fun s => s.toList.head?) h
    simp at this)⟩

end Verif.Props
