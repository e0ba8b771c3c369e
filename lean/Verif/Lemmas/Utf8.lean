import Verif.Spec.Utf8
import Verif.Model.Attractor

/-! # `utf8Valid` accepts exactly the encodings of sequences of scalar values -/

namespace Verif
open Spec Model

theorem IsUtf8.cons {bs cs : List UInt8} {v : Nat} (hv : IsScalar v) (h : bs.map UInt8.toNat = utf8Bytes v)
    (hc : IsUtf8 cs) : IsUtf8 (bs ++ cs) := by
  obtain ⟨vs, h1, h2⟩ := hc
  refine ⟨v :: vs, ?_, ?_⟩
  · intro x hx
    rcases List.mem_cons.1 hx with rfl | hx
    · exact hv
    · exact h1 x hx
  · rw [List.map_append, h, h2, List.flatMap_cons]

theorem isUtf8_of_valid (bs : List UInt8) (h : utf8Valid bs = true) : IsUtf8 bs := by
  induction hn : bs.length using Nat.strong_induction_on generalizing bs with
  | _ n ih =>
    subst hn
    rw [utf8Valid.eq_def] at h
    split at h
    · exact ⟨[], by simp, rfl⟩
    · rename_i a t
      split at h
      · rename_i ha
        rw [UInt8.lt_iff_toNat_lt] at ha
        have ha' : a.toNat < 128 := ha
        refine IsUtf8.cons (bs := [a]) (v := a.toNat) (Or.inl (by omega)) ?_ (ih _ (by simp) t h rfl)
        rw [utf8Bytes, if_pos (by omega)]; rfl
      · split at h
        · simp at h
        · rename_i b t
          split at h
          · rename_i hab
            simp only [UInt8.le_iff_toNat_le] at hab
            have h1 : 194 ≤ a.toNat ∧ a.toNat ≤ 223 ∧ 128 ≤ b.toNat ∧ b.toNat ≤ 191 := hab
            refine IsUtf8.cons (bs := [a, b]) (v := (a.toNat - 192) * 64 + (b.toNat - 128)) (Or.inl (by omega)) ?_
              (ih _ (by simp; omega) t h rfl)
            rw [utf8Bytes, if_neg (by omega), if_pos (by omega)]
            simp only [List.map_cons, List.map_nil, List.cons.injEq, and_true]
            omega
          · split at h
            · simp at h
            · rename_i c t
              split at h
              · rename_i habc
                simp only [UInt8.le_iff_toNat_le, ← UInt8.toNat_inj] at habc
                have h1 : 128 ≤ c.toNat ∧ c.toNat ≤ 191 ∧ ((a.toNat = 224 ∧ 160 ≤ b.toNat ∧ b.toNat ≤ 191) ∨
                  (225 ≤ a.toNat ∧ a.toNat ≤ 236 ∧ 128 ≤ b.toNat ∧ b.toNat ≤ 191) ∨
                  (a.toNat = 237 ∧ 128 ≤ b.toNat ∧ b.toNat ≤ 159) ∨
                  (238 ≤ a.toNat ∧ a.toNat ≤ 239 ∧ 128 ≤ b.toNat ∧ b.toNat ≤ 191)) := habc
                refine IsUtf8.cons (bs := [a, b, c])
                  (v := (a.toNat - 224) * 4096 + (b.toNat - 128) * 64 + (c.toNat - 128)) ?_ ?_
                  (ih _ (by simp; omega) t h rfl)
                · unfold IsScalar; omega
                · rw [utf8Bytes, if_neg (by omega), if_neg (by omega), if_pos (by omega)]
                  simp only [List.map_cons, List.map_nil, List.cons.injEq, and_true]
                  omega
              · split at h
                · simp at h
                · rename_i d t
                  split at h
                  · rename_i habcd
                    simp only [UInt8.le_iff_toNat_le, ← UInt8.toNat_inj] at habcd
                    have h1 : 128 ≤ c.toNat ∧ c.toNat ≤ 191 ∧ 128 ≤ d.toNat ∧ d.toNat ≤ 191 ∧
                      ((a.toNat = 240 ∧ 144 ≤ b.toNat ∧ b.toNat ≤ 191) ∨
                      (241 ≤ a.toNat ∧ a.toNat ≤ 243 ∧ 128 ≤ b.toNat ∧ b.toNat ≤ 191) ∨
                      (a.toNat = 244 ∧ 128 ≤ b.toNat ∧ b.toNat ≤ 143)) := habcd
                    refine IsUtf8.cons (bs := [a, b, c, d])
                      (v := (a.toNat - 240) * 262144 + (b.toNat - 128) * 4096 + (c.toNat - 128) * 64 +
                        (d.toNat - 128)) ?_ ?_
                      (ih _ (by simp; omega) t h rfl)
                    · unfold IsScalar; omega
                    · rw [utf8Bytes, if_neg (by omega), if_neg (by omega), if_neg (by omega)]
                      simp only [List.map_cons, List.map_nil, List.cons.injEq, and_true]
                      omega
                  · simp at h

theorem valid_of_isUtf8 (bs : List UInt8) (h : IsUtf8 bs) : utf8Valid bs = true := by
  obtain ⟨vs, h1, h2⟩ := h
  induction vs generalizing bs with
  | nil =>
    have : bs = [] := by simpa using h2
    subst this
    simp [utf8Valid]
  | cons v vs ih =>
    have ih' := fun cs => ih cs (fun x hx => h1 x (by simp [hx]))
    have hv := h1 v (by simp)
    rw [List.flatMap_cons] at h2
    unfold utf8Bytes at h2
    unfold IsScalar at hv
    split at h2
    · rw [List.cons_append, List.nil_append] at h2
      obtain ⟨a, t, rfl, ha, ht⟩ := List.map_eq_cons_iff.1 h2
      rw [utf8Valid.eq_def]
      dsimp only
      rw [if_pos (by rw [UInt8.lt_iff_toNat_lt]; show a.toNat < 128; omega)]
      exact ih' t ht
    · split at h2
      · simp only [List.cons_append, List.nil_append] at h2
        obtain ⟨a, t, rfl, ha, h2⟩ := List.map_eq_cons_iff.1 h2
        obtain ⟨b, t, rfl, hb, ht⟩ := List.map_eq_cons_iff.1 h2
        rw [utf8Valid.eq_def]
        dsimp only
        rw [if_neg (by rw [UInt8.lt_iff_toNat_lt]; show ¬ a.toNat < 128; omega),
          if_pos (by
            simp only [UInt8.le_iff_toNat_le]
            show 194 ≤ a.toNat ∧ a.toNat ≤ 223 ∧ 128 ≤ b.toNat ∧ b.toNat ≤ 191
            omega)]
        exact ih' t ht
      · split at h2
        · simp only [List.cons_append, List.nil_append] at h2
          obtain ⟨a, t, rfl, ha, h2⟩ := List.map_eq_cons_iff.1 h2
          obtain ⟨b, t, rfl, hb, h2⟩ := List.map_eq_cons_iff.1 h2
          obtain ⟨c, t, rfl, hc, ht⟩ := List.map_eq_cons_iff.1 h2
          rw [utf8Valid.eq_def]
          dsimp only
          rw [if_neg (by rw [UInt8.lt_iff_toNat_lt]; show ¬ a.toNat < 128; omega),
            if_neg (by
              simp only [UInt8.le_iff_toNat_le]
              show ¬ (194 ≤ a.toNat ∧ a.toNat ≤ 223 ∧ 128 ≤ b.toNat ∧ b.toNat ≤ 191)
              omega),
            if_pos (by
              simp only [UInt8.le_iff_toNat_le, ← UInt8.toNat_inj]
              show 128 ≤ c.toNat ∧ c.toNat ≤ 191 ∧ ((a.toNat = 224 ∧ 160 ≤ b.toNat ∧ b.toNat ≤ 191) ∨
                  (225 ≤ a.toNat ∧ a.toNat ≤ 236 ∧ 128 ≤ b.toNat ∧ b.toNat ≤ 191) ∨
                  (a.toNat = 237 ∧ 128 ≤ b.toNat ∧ b.toNat ≤ 159) ∨
                  (238 ≤ a.toNat ∧ a.toNat ≤ 239 ∧ 128 ≤ b.toNat ∧ b.toNat ≤ 191))
              omega)]
          exact ih' t ht
        · simp only [List.cons_append, List.nil_append] at h2
          obtain ⟨a, t, rfl, ha, h2⟩ := List.map_eq_cons_iff.1 h2
          obtain ⟨b, t, rfl, hb, h2⟩ := List.map_eq_cons_iff.1 h2
          obtain ⟨c, t, rfl, hc, h2⟩ := List.map_eq_cons_iff.1 h2
          obtain ⟨d, t, rfl, hd, ht⟩ := List.map_eq_cons_iff.1 h2
          rw [utf8Valid.eq_def]
          dsimp only
          rw [if_neg (by rw [UInt8.lt_iff_toNat_lt]; show ¬ a.toNat < 128; omega),
            if_neg (by
              simp only [UInt8.le_iff_toNat_le]
              show ¬ (194 ≤ a.toNat ∧ a.toNat ≤ 223 ∧ 128 ≤ b.toNat ∧ b.toNat ≤ 191)
              omega),
            if_neg (by
              simp only [UInt8.le_iff_toNat_le, ← UInt8.toNat_inj]
              show ¬ (128 ≤ c.toNat ∧ c.toNat ≤ 191 ∧ ((a.toNat = 224 ∧ 160 ≤ b.toNat ∧ b.toNat ≤ 191) ∨
                  (225 ≤ a.toNat ∧ a.toNat ≤ 236 ∧ 128 ≤ b.toNat ∧ b.toNat ≤ 191) ∨
                  (a.toNat = 237 ∧ 128 ≤ b.toNat ∧ b.toNat ≤ 159) ∨
                  (238 ≤ a.toNat ∧ a.toNat ≤ 239 ∧ 128 ≤ b.toNat ∧ b.toNat ≤ 191)))
              omega),
            if_pos (by
              simp only [UInt8.le_iff_toNat_le, ← UInt8.toNat_inj]
              show 128 ≤ c.toNat ∧ c.toNat ≤ 191 ∧ 128 ≤ d.toNat ∧ d.toNat ≤ 191 ∧
                      ((a.toNat = 240 ∧ 144 ≤ b.toNat ∧ b.toNat ≤ 191) ∨
                      (241 ≤ a.toNat ∧ a.toNat ≤ 243 ∧ 128 ≤ b.toNat ∧ b.toNat ≤ 191) ∨
                      (a.toNat = 244 ∧ 128 ≤ b.toNat ∧ b.toNat ≤ 143))
              omega)]
          exact ih' t ht

theorem utf8Valid_iff (bs : List UInt8) : utf8Valid bs = true ↔ IsUtf8 bs :=
  ⟨isUtf8_of_valid bs, valid_of_isUtf8 bs⟩

end Verif
