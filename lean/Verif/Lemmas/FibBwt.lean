import Verif.Lemmas.BwtSa
import Verif.Lemmas.FibAttractor

/-! # The suffix-array BWT of Fibonacci words of even order -/

namespace Verif

open Spec Model

/-- All suffixes of a text, each with the letter before it (`p` before the whole text). -/
def ctx (p : UInt8) : List UInt8 → List (UInt8 × List UInt8)
  | [] => []
  | x :: t => (p, x :: t) :: ctx x t

theorem ctx_eq (t : List UInt8) : ∀ p, (ctx p t).map (fun z => (some z.1, z.2)) =
    (List.range t.length).map (fun i => ((p :: t)[i]?, t.drop i)) := by
  induction t with
  | nil => intro p; rfl
  | cons x t ih =>
    intro p
    rw [ctx, List.map_cons, ih x, List.length_cons, List.range_succ_eq_map, List.map_cons, List.map_map]
    simp

theorem rot_getLast_cons {t : List UInt8} {p : UInt8} (hp : t.getLast? = some p) {i : Nat} (hi : i < t.length) :
    (rot i t).getLast? = (p :: t)[i]? := by
  cases i with
  | zero => simpa [rot] using hp
  | succ i =>
    rw [rot_getLast hi, show i + 1 + t.length - 1 = i + t.length by omega, Nat.add_mod_right, Nat.mod_eq_of_lt (by omega)]
    simp

/-- The suffix-array BWT, through sorted contexts. -/
theorem saBwt_ctx {t : List UInt8} {sa : List Nat} {b : List UInt8} {p : UInt8} (hp : t.getLast? = some p)
    (hsa : IsSuffixArray t sa) (hb : b.map some = sa.map (fun i => (rot i t).getLast?))
    {m : List (UInt8 × List UInt8)} (hm : m.Perm (ctx p t)) (hs : m.Pairwise (fun x y => x.2 < y.2)) :
    b = m.map Prod.fst := by
  have h1 : (sa.map (fun i => ((p :: t)[i]?, t.drop i))).Perm (m.map (fun z => (some z.1, z.2))) := by
    refine ((hsa.1.map _).trans ?_).trans (hm.map _).symm
    rw [ctx_eq]
  have h2 : sa.map (fun i => ((p :: t)[i]?, t.drop i)) = m.map (fun z => (some z.1, z.2)) := by
    refine List.Perm.eq_of_pairwise (le := fun x y => x.2 < y.2)
      (fun _ _ _ _ h h' => absurd h (not_lt.2 (le_of_lt h'))) ?_ ?_ h1
    · rw [List.pairwise_map]; exact hsa.2
    · rw [List.pairwise_map]; exact hs
  have h3 := congrArg (List.map Prod.fst) h2
  rw [List.map_map, List.map_map] at h3
  have h4 : b.map some = (m.map Prod.fst).map some := by
    rw [hb, List.map_map]
    refine Eq.trans ?_ h3
    refine List.map_congr_left fun i hi => ?_
    exact rot_getLast_cons hp (hsa.mem.1 hi)
  exact List.map_injective_iff.2 (Option.some_injective _) h4

/-- The square of the Fibonacci morphism: `a → aba`, `b → ab`. -/
def psi : List UInt8 → List UInt8
  | [] => []
  | x :: t => (if x = 97 then [97, 98, 97] else [97, 98]) ++ psi t

theorem psi_append (u v : List UInt8) : psi (u ++ v) = psi u ++ psi v := by
  induction u with
  | nil => rfl
  | cons x u ih => simp [psi, ih]

theorem psi_fib (k : Nat) : fibWord (k + 2) = psi (fibWord k) := by
  induction k using fibWord.induct with
  | case1 => decide
  | case2 => decide
  | case3 n h1 h2 =>
    show fibWord (n + 1 + 2) ++ fibWord (n + 2) = psi (fibWord (n + 1) ++ fibWord n)
    rw [psi_append, h1, h2]

theorem psi_cons (x : UInt8) (t : List UInt8) : ∃ r, psi (x :: t) = 97 :: 98 :: r := by
  unfold psi
  by_cases h : x = 97
  · exact ⟨97 :: psi t, by simp [h]⟩
  · exact ⟨psi t, by simp [h]⟩

/-- words over `a`, `b` that are empty or end in `a`. -/
def AbA (w : List UInt8) : Prop := (∀ x ∈ w, x = 97 ∨ x = 98) ∧ (w = [] ∨ w.getLast? = some 97)

theorem AbA.tail {x : UInt8} {w : List UInt8} (h : AbA (x :: w)) : AbA w := by
  refine ⟨fun y hy => h.1 y (List.mem_cons_of_mem _ hy), ?_⟩
  rcases w with _ | ⟨y, w⟩
  · exact Or.inl rfl
  · right
    have := h.2
    simpa using this

theorem a_psi_lt (u : List UInt8) {v : List UInt8} (hv : v ≠ []) : 97 :: psi u < psi v := by
  obtain ⟨y, v, rfl⟩ := List.exists_cons_of_ne_nil hv
  obtain ⟨r, hr⟩ := psi_cons y v
  rw [hr]
  rcases u with _ | ⟨x, u⟩
  · rw [cons_lt_cons]; exact Or.inr ⟨rfl, lt_of_prefix List.nil_prefix (by simp [psi])⟩
  · obtain ⟨s, hs⟩ := psi_cons x u
    rw [hs, cons_lt_cons, cons_lt_cons]
    right; refine ⟨rfl, Or.inl (by decide)⟩

theorem psi_lt {u v : List UInt8} (hu : AbA u) (hv : AbA v) (h : u < v) : psi u < psi v := by
  induction u generalizing v with
  | nil =>
    rcases v with _ | ⟨y, v⟩
    · simp at h
    · obtain ⟨r, hr⟩ := psi_cons y v
      rw [hr]; exact lt_of_prefix List.nil_prefix (by simp [psi])
  | cons x u ih =>
    rcases v with _ | ⟨y, v⟩
    · simp at h
    · rcases cons_lt_cons.1 h with h1 | ⟨rfl, h1⟩
      · have hx : x = 97 := by
          rcases hu.1 x (by simp) with h | h
          · exact h
          · rcases hv.1 y (by simp) with h' | h' <;> · subst h h'; exact absurd h1 (by decide)
        have hy : y ≠ 97 := by rintro rfl; subst hx; exact absurd h1 (by decide)
        have hv0 : v ≠ [] := by
          rintro rfl
          rcases hv.2 with h | h
          · simp at h
          · simp at h; exact hy h
        subst hx
        rw [psi, psi, if_pos rfl, if_neg hy]
        show [97, 98] ++ (97 :: psi u) < [97, 98] ++ psi v
        rw [append_lt_left]
        exact a_psi_lt u hv0
      · rw [psi, psi, append_lt_left]
        exact ih hu.tail hv.tail h1

/-- The contexts of `ψ(w)`, in three groups. -/
theorem ctx_psi (w : List UInt8) (hw : ∀ x ∈ w, x = 97 ∨ x = 98) : ∀ p, (ctx p (psi w)).Perm
    (((ctx p w).filter (fun z => z.2.head? = some 97)).map (fun z => (98, 97 :: psi z.2.tail)) ++
      ((ctx p w).map (fun z => (z.1, psi z.2)) ++ (ctx p w).map (fun z => (97, (psi z.2).tail)))) := by
  induction w with
  | nil => intro p; exact List.Perm.refl _
  | cons x w ih =>
    intro p
    have ih := ih (fun y hy => hw y (List.mem_cons_of_mem _ hy))
    rcases hw x (by simp) with rfl | rfl
    · have e : ctx p (psi (97 :: w)) = (p, psi (97 :: w)) :: (97, (psi (97 :: w)).tail) ::
          (98, 97 :: psi w) :: ctx 97 (psi w) := by simp [psi, ctx]
      rw [e]
      simp only [ctx, List.map_cons, List.filter_cons, List.head?_cons, decide_true, if_true, List.tail_cons,
        List.cons_append]
      refine ((ih 97).cons _ |>.cons _ |>.cons _).trans ?_
      rw [← Multiset.coe_eq_coe]
      simp only [← Multiset.cons_coe, ← Multiset.coe_add]
      simp only [Multiset.add_cons]
      rw [Multiset.cons_swap (97, _), Multiset.cons_swap (p, _), Multiset.cons_swap (p, _) (97, _)]
    · have e : ctx p (psi (98 :: w)) = (p, psi (98 :: w)) :: (97, (psi (98 :: w)).tail) ::
          ctx 98 (psi w) := by simp [psi, ctx]
      rw [e]
      simp only [ctx, List.map_cons, List.filter_cons, List.head?_cons]
      refine ((ih 98).cons _ |>.cons _).trans ?_
      rw [← Multiset.coe_eq_coe]
      simp [← Multiset.cons_coe, ← Multiset.coe_add, Multiset.add_cons]

theorem ctx_snd {w : List UInt8} {p : UInt8} {z : UInt8 × List UInt8} (h : z ∈ ctx p w) (hw : AbA w) :
    AbA z.2 ∧ z.2 ≠ [] := by
  induction w generalizing p with
  | nil => simp [ctx] at h
  | cons x w ih =>
    rw [ctx, List.mem_cons] at h
    rcases h with rfl | h
    · exact ⟨hw, by simp⟩
    · exact ih h hw.tail

/-- The BWT of `ψ(w)`. -/
theorem psi_sorted {w : List UInt8} {p : UInt8} (hw : AbA w) {m : List (UInt8 × List UInt8)}
    (hm : m.Perm (ctx p w)) (hs : m.Pairwise (fun x y => x.2 < y.2)) :
    ∃ m' : List (UInt8 × List UInt8), m'.Perm (ctx p (psi w)) ∧ m'.Pairwise (fun x y => x.2 < y.2) ∧
      m'.map Prod.fst = List.replicate (m.filter (fun z => z.2.head? = some 97)).length 98 ++
        (m.map Prod.fst ++ List.replicate m.length 97) := by
  refine ⟨(m.filter (fun z => z.2.head? = some 97)).map (fun z => (98, 97 :: psi z.2.tail)) ++
      (m.map (fun z => (z.1, psi z.2)) ++ m.map (fun z => (97, (psi z.2).tail))), ?_, ?_, ?_⟩
  · refine List.Perm.trans ?_ (ctx_psi w hw.1 p).symm
    exact ((hm.filter _).map _).append ((hm.map _).append (hm.map _))
  · have hz : ∀ z ∈ m, AbA z.2 ∧ z.2 ≠ [] := fun z h => ctx_snd (hm.mem_iff.1 h) hw
    rw [List.pairwise_append, List.pairwise_append, List.pairwise_map, List.pairwise_map, List.pairwise_map]
    refine ⟨?_, ⟨?_, ?_, ?_⟩, ?_⟩
    · refine ((hs.sublist List.filter_sublist).imp_of_mem ?_)
      intro x y hx hy h
      rw [List.mem_filter, decide_eq_true_eq] at hx hy
      obtain ⟨x1, x2⟩ := x
      obtain ⟨y1, y2⟩ := y
      obtain ⟨c, rfl⟩ : ∃ c, x2 = 97 :: c := by
        rcases x2 with _ | ⟨a, c⟩
        · simp at hx
        · exact ⟨c, by simpa using hx.2⟩
      obtain ⟨d, rfl⟩ : ∃ d, y2 = 97 :: d := by
        rcases y2 with _ | ⟨a, c⟩
        · simp at hy
        · exact ⟨c, by simpa using hy.2⟩
      simp only [List.tail_cons, cons_lt_cons, lt_self_iff_false, false_or, true_and] at h ⊢
      exact psi_lt (hz _ hx.1).1.tail (hz _ hy.1).1.tail h
    · refine hs.imp_of_mem ?_
      intro x y hx hy h
      exact psi_lt (hz _ hx).1 (hz _ hy).1 h
    · refine hs.imp_of_mem ?_
      intro x y hx hy h
      have := psi_lt (hz _ hx).1 (hz _ hy).1 h
      obtain ⟨a, u, hu⟩ := List.exists_cons_of_ne_nil (hz _ hx).2
      obtain ⟨b, v, hv⟩ := List.exists_cons_of_ne_nil (hz _ hy).2
      rw [hu, hv] at this ⊢
      obtain ⟨r, hr⟩ := psi_cons a u
      obtain ⟨s, hs⟩ := psi_cons b v
      rw [hr, hs] at this ⊢
      simpa using this
    · intro x hx y hy
      obtain ⟨x, hx', rfl⟩ := List.mem_map.1 hx
      obtain ⟨y, hy', rfl⟩ := List.mem_map.1 hy
      replace hx := hx'
      replace hy := hy'
      obtain ⟨a, u, hu⟩ := List.exists_cons_of_ne_nil (hz _ hx).2
      obtain ⟨b, v, hv⟩ := List.exists_cons_of_ne_nil (hz _ hy).2
      obtain ⟨r, hr⟩ := psi_cons a u
      obtain ⟨s, hs⟩ := psi_cons b v
      simp only [hu, hv, hr, hs, List.tail_cons, cons_lt_cons]
      left; decide
    · intro x hx y hy
      obtain ⟨x, hx, rfl⟩ := List.mem_map.1 hx
      rcases List.mem_append.1 hy with hy | hy <;> obtain ⟨y, hy', rfl⟩ := List.mem_map.1 hy <;> replace hy := hy'
      · exact a_psi_lt _ (hz _ hy).2
      · obtain ⟨b, v, hv⟩ := List.exists_cons_of_ne_nil (hz _ hy).2
        obtain ⟨s, hs⟩ := psi_cons b v
        simp only [hv, hs, List.tail_cons, cons_lt_cons]
        left; decide
  · simp [List.map_append, List.map_map, Function.comp_def]

theorem ctx_filter_length (w : List UInt8) : ∀ p,
    ((ctx p w).filter (fun z => z.2.head? = some 97)).length = w.count 97 := by
  induction w with
  | nil => intro p; rfl
  | cons x w ih =>
    intro p
    rw [ctx, List.filter_cons, List.count_cons]
    by_cases h : x = 97
    · simp [h, ih]
    · simp [h, ih]

theorem ctx_length (w : List UInt8) : ∀ p, (ctx p w).length = w.length := by
  induction w with
  | nil => intro p; rfl
  | cons x w ih => intro p; simp [ctx, ih]

theorem psi_count (w : List UInt8) (hw : ∀ x ∈ w, x = 97 ∨ x = 98) :
    (psi w).count 98 = w.count 97 + w.count 98 ∧ (psi w).count 97 = w.count 97 + w.length := by
  induction w with
  | nil => exact ⟨rfl, rfl⟩
  | cons x w ih =>
    obtain ⟨h1, h2⟩ := ih (fun y hy => hw y (List.mem_cons_of_mem _ hy))
    rcases hw x (by simp) with rfl | rfl
    · rw [psi, if_pos rfl]
      simp [h1, h2]; omega
    · rw [psi, if_neg (by decide)]
      simp [h1, h2]; omega

theorem fibWord_ab (k : Nat) : ∀ x ∈ fibWord k, x = 97 ∨ x = 98 := by
  induction k using fibWord.induct with
  | case1 => simp [fibWord]
  | case2 => simp [fibWord]
  | case3 n h1 h2 =>
    intro x hx
    rw [fibWord, List.mem_append] at hx
    exact hx.elim (h1 x) (h2 x)

theorem fib_even_last (i : Nat) : (fibWord (2 * i)).getLast? = some 97 := by
  induction i with
  | zero => decide
  | succ i ih =>
    rw [show 2 * (i + 1) = 2 * i + 2 by ring, fibWord, List.getLast?_append, ih]
    rfl

/-- The sorted contexts of a Fibonacci word of even order. -/
theorem fib_even_ctx (i : Nat) : ∃ m : List (UInt8 × List UInt8), m.Perm (ctx 97 (fibWord (2 * i))) ∧
    m.Pairwise (fun x y => x.2 < y.2) ∧
    m.map Prod.fst = List.replicate ((fibWord (2 * i)).count 98) 98 ++
      List.replicate ((fibWord (2 * i)).count 97) 97 := by
  induction i with
  | zero => exact ⟨[(97, [97])], List.Perm.refl _, by simp, by decide⟩
  | succ i ih =>
    obtain ⟨m, h1, h2, h3⟩ := ih
    obtain ⟨m', g1, g2, g3⟩ := psi_sorted ⟨fibWord_ab (2 * i), Or.inr (fib_even_last i)⟩ h1 h2
    rw [show 2 * (i + 1) = 2 * i + 2 by ring, psi_fib]
    refine ⟨m', g1, g2, ?_⟩
    rw [g3, (h1.filter _).length_eq, ctx_filter_length, h3, h1.length_eq, ctx_length,
      (psi_count _ (fibWord_ab _)).1, (psi_count _ (fibWord_ab _)).2, List.replicate_add, List.replicate_add]
    simp only [List.append_assoc]

/-! ## Numbers of runs -/

/-- The number of letters that differ from their predecessor (`p` before the first). -/
def switches (p : UInt8) : List UInt8 → Nat
  | [] => 0
  | x :: t => (if x ≠ p then 1 else 0) + switches x t

theorem loop_switches (t : List UInt8) : ∀ p n, numberOfRunsLoop (sliceReader t) p n = n + switches p t := by
  induction t with
  | nil => intro p n; rfl
  | cons x t ih =>
    intro p n
    rw [sliceReader, List.map_cons, numberOfRunsLoop, switches]
    by_cases h : x = p
    · subst h; simpa [sliceReader] using ih x n
    · rw [if_pos h, if_pos h]
      have := ih x (n + 1)
      rw [sliceReader] at this
      rw [this]; omega

theorem runs_switches (x : UInt8) (t : List UInt8) : numberOfRuns (sliceReader (x :: t)) = 1 + switches x t :=
  loop_switches t x 1

theorem switches_le (t : List UInt8) (p q : UInt8) : switches p t ≤ (if q ≠ p then 1 else 0) + switches q t := by
  cases t with
  | nil => simp [switches]
  | cons x t =>
    simp only [switches]
    split_ifs <;> first | omega | (simp_all)

theorem switches_sublist {c b : List UInt8} (h : c.Sublist b) : ∀ p, switches p c ≤ switches p b := by
  induction h with
  | slnil => intro p; exact le_rfl
  | cons x h ih =>
    intro p
    exact (switches_le _ p x).trans (by rw [switches]; exact Nat.add_le_add_left (ih x) _)
  | cons_cons x h ih =>
    intro p
    simp only [switches]
    exact Nat.add_le_add_left (ih x) _

theorem runs_sublist {c b : List UInt8} (h : c.Sublist b) : numberOfRuns (sliceReader c) ≤ numberOfRuns (sliceReader b) := by
  cases h with
  | slnil => exact le_rfl
  | cons x h =>
    rename_i b
    rw [runs_switches]
    rcases c with _ | ⟨y, c⟩
    · show 0 ≤ _; omega
    · rw [runs_switches]
      have := switches_sublist h x
      rw [switches] at this
      have h2 := switches_le c y y
      split_ifs at this <;> simp_all; omega
  | cons_cons x h =>
    rw [runs_switches, runs_switches]
    exact Nat.add_le_add_left (switches_sublist h x) _

theorem mem_ctx (u : List UInt8) {x : UInt8} {v : List UInt8} (hv : v ≠ []) : ∀ p, (x, v) ∈ ctx p (u ++ x :: v) := by
  induction u with
  | nil =>
    intro p
    obtain ⟨y, v, rfl⟩ := List.exists_cons_of_ne_nil hv
    simp [ctx]
  | cons y u ih => intro p; rw [List.cons_append, ctx]; exact List.mem_cons_of_mem _ (ih y)

/-- The BWT of a Fibonacci word of odd order at least 3 has at least four runs. -/
theorem fib_odd_runs (i : Nat) {sa : List Nat} {b : List UInt8} (hsa : IsSuffixArray (fibWord (2 * i + 3)) sa)
    (hb : b.map some = sa.map (fun j => (rot j (fibWord (2 * i + 3))).getLast?)) :
    4 ≤ numberOfRuns (sliceReader b) := by
  have hpre : ∀ k, ∃ r, fibWord (k + 3) = [97, 98, 97, 97, 98] ++ r := by
    intro k
    induction k with
    | zero => exact ⟨[], by decide⟩
    | succ k ih =>
      obtain ⟨r, hr⟩ := ih
      exact ⟨r ++ fibWord (k + 2), by rw [show k + 1 + 3 = k + 2 + 2 from rfl, fibWord, show k + 2 + 1 = k + 3 from rfl, hr]; simp⟩
  have hsuf : ∀ k, ∃ r, fibWord (2 * k + 3) = r ++ [97, 98, 97, 97, 98] := by
    intro k
    induction k with
    | zero => exact ⟨[], by decide⟩
    | succ k ih =>
      obtain ⟨r, hr⟩ := ih
      exact ⟨fibWord (2 * k + 3 + 1) ++ r, by
        rw [show 2 * (k + 1) + 3 = 2 * k + 3 + 2 by ring, fibWord, hr]; simp⟩
  obtain ⟨r, hr⟩ := hpre (2 * i)
  obtain ⟨s, hs⟩ := hsuf i
  generalize hT : fibWord (2 * i + 3) = T at *
  have hp : T.getLast? = some 98 := by rw [hs]; simp
  obtain ⟨m, hm, hms⟩ : ∃ m : List (UInt8 × List UInt8), m.Perm (ctx 98 T) ∧ m.Pairwise (fun x y => x.2 < y.2) := by
    have h1 := ctx_eq T 98
    have h2 := (hsa.1.map (fun i => ((98 :: T)[i]?, T.drop i))).symm
    rw [← h1] at h2
    have h3 : (sa.map (fun i => ((98 :: T)[i]?, T.drop i))).map (fun z => (z.1.getD 0, z.2)) |>.Perm (ctx 98 T) := by
      have := (h2.map (fun z => (z.1.getD 0, z.2))).symm
      rwa [List.map_map, List.map_map (g := fun z => (z.1.getD 0, z.2)) (f := fun z : UInt8 × List UInt8 => (some z.1, z.2)),
        show (fun z : Option UInt8 × List UInt8 => (z.1.getD 0, z.2)) ∘ (fun z : UInt8 × List UInt8 => (some z.1, z.2)) = id from rfl,
        List.map_id, ← List.map_map] at this
    refine ⟨_, h3, ?_⟩
    rw [List.map_map, List.pairwise_map]
    exact hsa.2
  rw [saBwt_ctx hp hsa hb hm hms]
  have hsub : [(98, 97 :: 97 :: 98 :: r), (97, [97, 98]), (98, T), (97, [98])].Sublist m := by
    have hsort : [((98 : UInt8), 97 :: 97 :: 98 :: r), (97, [97, 98]), (98, T), (97, [(98 : UInt8)])].Pairwise
        (fun x y => x.2 < y.2) := by
      have g1 : 97 :: 97 :: 98 :: r < [97, 98] := by rw [cons_lt_cons, cons_lt_cons]; right; exact ⟨rfl, Or.inl (by decide)⟩
      have g2 : [97, 98] < T := by rw [hr]; exact lt_of_prefix ⟨_, rfl⟩ (by simp)
      have g3 : T < [98] := by rw [hr]; show 97 :: _ < _; rw [cons_lt_cons]; left; decide
      simp only [List.pairwise_cons, List.mem_cons, forall_eq_or_imp, List.not_mem_nil, false_imp_iff, implies_true,
        List.Pairwise.nil, and_true]
      exact ⟨⟨g1, g1.trans g2, (g1.trans g2).trans g3⟩, ⟨g2, g2.trans g3⟩, g3⟩
    refine List.sublist_of_subperm_of_pairwise (r := fun x y => x.2 < y.2) ?_ hsort hms
      
    refine (List.subperm_of_subset (hsort.imp (fun h e => ?_)) ?_)
    · rw [e] at h; exact lt_irrefl _ h
    · intro z hz
      rw [hm.mem_iff]
      simp only [List.mem_cons, List.not_mem_nil, or_false] at hz
      rcases hz with rfl | rfl | rfl | rfl
      · have := mem_ctx [97] (x := 98) (v := 97 :: 97 :: 98 :: r) (by simp) 98
        rw [hr]; exact this
      · have := mem_ctx (s ++ [97, 98]) (x := 97) (v := [97, 98]) (by simp) 98
        rw [hs]; simpa using this
      · have : T ≠ [] := by rw [hr]; simp
        obtain ⟨y, v, rfl⟩ := List.exists_cons_of_ne_nil this
        simp [ctx]
      · have := mem_ctx (s ++ [97, 98, 97]) (x := 97) (v := [98]) (by simp) 98
        rw [hs]; simpa using this
  exact le_trans (by decide : 4 ≤ numberOfRuns (sliceReader [98, 97, 98, 97])) (runs_sublist (hsub.map Prod.fst))

end Verif
