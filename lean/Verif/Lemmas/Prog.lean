import Verif.Model.Prog
import Mathlib.Logic.Relation
import Mathlib.Data.Fintype.Card
import Mathlib.Data.Fin.Basic
import Mathlib.Data.Finset.Lattice.Fold
import Mathlib.Order.Basic

/-! # Reasoning about threads with locks -/

namespace Verif.Par

open Verif Model

section generic

variable {S L : Type} [DecidableEq L]

/-- One step of one thread, not from the end of a round. -/
def PStep (body : Prog S L) (c c' : Config S L) : Prop := Prog.step body c = some c' ∧ c.2.2 ≠ .again

/-- Several such steps. -/
def PRuns (body : Prog S L) : Config S L → Config S L → Prop := Relation.ReflTransGen (PStep body)

theorem PRuns.lift {T : Nat} {body : Prog S L} {s : TState S L T} {t : Fin T} {p0 : Prog S L}
    {c : Config S L} (hp : s.prog t = p0) (h : PRuns body (s.sh, s.locks, p0) c) :
    Relation.ReflTransGen (TState.Step body) s ⟨c.1, c.2.1, Function.update s.prog t c.2.2⟩ := by
  subst hp
  induction h with
  | refl =>
    have : (⟨s.sh, s.locks, Function.update s.prog t (s.prog t)⟩ : TState S L T) = s := by
      rw [Function.update_eq_self]
    rw [this]
  | tail _ hs ih =>
    refine ih.tail ⟨t, ?_⟩
    obtain ⟨h1, _⟩ := hs
    simp only [TState.stepOf, Function.update_self]
    rw [h1]
    simp only [Function.update_idem]

theorem step_again {T : Nat} {body : Prog S L} {s : TState S L T} {t : Fin T} (hp : s.prog t = .again) :
    TState.Step body s ⟨s.sh, s.locks, Function.update s.prog t body⟩ :=
  ⟨t, by simp [TState.stepOf, hp, Prog.step]⟩

theorem PRuns.one {body : Prog S L} {c c' : Config S L} (h : Prog.step body c = some c')
    (h2 : c.2.2 ≠ .again) : PRuns body c c' := Relation.ReflTransGen.single ⟨h, h2⟩

theorem PRuns.trans {body : Prog S L} {a b c : Config S L} (h : PRuns body a b) (h' : PRuns body b c) :
    PRuns body a c := Relation.ReflTransGen.trans h h'

theorem PRuns.act {body : Prog S L} {s s' : S} {lk : L → Holds} {g : S → Res S} {k : S → Prog S L}
    {c : Config S L} (hg : g s = .ok s') (h : PRuns body (s', lk, k s) c) :
    PRuns body (s, lk, .act g k) c := by
  refine PRuns.trans (PRuns.one ?_ (by simp)) h
  simp [Prog.step, hg]

theorem PRuns.acqW {body : Prog S L} {s : S} {lk : L → Holds} {l : L} {k : Prog S L} {c : Config S L}
    (h0 : lk l = (0, false)) (h : PRuns body (s, Function.update lk l (0, true), k) c) :
    PRuns body (s, lk, .acq l true k) c := by
  refine PRuns.trans (PRuns.one ?_ (by simp)) h
  simp [Prog.step, h0]

/-- A write-locked block. -/
theorem PRuns.bracketW {body : Prog S L} {s s' : S} {lk : L → Holds} {l : L} {k k' : Prog S L}
    (h0 : lk l = (0, false))
    (h : PRuns body (s, Function.update lk l (0, true), k)
      (s', Function.update lk l (0, true), .rel l true k')) :
    PRuns body (s, lk, .acq l true k) (s', lk, k') := by
  refine PRuns.acqW h0 (h.trans (PRuns.one ?_ (by simp)))
  simp only [Prog.step, Function.update_self, Function.update_idem]
  rw [← h0, Function.update_eq_self]

/-- A read-locked block. -/
theorem PRuns.bracketR {body : Prog S L} {s s' : S} {lk : L → Holds} {l : L} {k k' : Prog S L}
    (h0 : lk l = (0, false))
    (h : PRuns body (s, Function.update lk l (1, false), k)
      (s', Function.update lk l (1, false), .rel l false k')) :
    PRuns body (s, lk, .acq l false k) (s', lk, k') := by
  refine PRuns.trans (PRuns.one (c' := (s, Function.update lk l (1, false), k)) ?_ (by simp))
    (h.trans (PRuns.one ?_ (by simp)))
  · simp [Prog.step, h0]
  · simp only [Prog.step, Function.update_self, Function.update_idem]
    rw [show (1 - 1, false) = lk l from h0.symm, Function.update_eq_self]

/-! ### One thread -/

/-- The program runs from `s` without panicking, and `Q` holds at the end of the round. -/
def Seq (Q R : S → Prop) : Prog S L → S → Prop
  | .acq _ _ k, s => Seq Q R k s
  | .rel _ _ k, s => Seq Q R k s
  | .act g k, s => ∃ s', g s = .ok s' ∧ Seq Q R (k s) s'
  | .again, s => Q s
  | .stop, s => R s
  | .panic, _ => False

theorem Seq.back1 {Q R : S → Prop} {body : Prog S L} {c c' : Config S L} (h : PStep body c c')
    (hq : Seq Q R c'.2.2 c'.1) : Seq Q R c.2.2 c.1 := by
  obtain ⟨s, lk, p⟩ := c
  obtain ⟨h1, h2⟩ := h
  match p, h1, h2 with
  | .acq l true k, h1, _ =>
    simp only [Prog.step] at h1
    split at h1
    · injection h1 with h1; subst h1; exact hq
    · cases h1
  | .acq l false k, h1, _ =>
    simp only [Prog.step] at h1
    split at h1
    · injection h1 with h1; subst h1; exact hq
    · cases h1
  | .rel l true k, h1, _ => injection h1 with h1; subst h1; exact hq
  | .rel l false k, h1, _ => injection h1 with h1; subst h1; exact hq
  | .act g k, h1, _ =>
    simp only [Prog.step] at h1
    split at h1
    · rename_i s' hg
      injection h1 with h1; subst h1; exact ⟨s', hg, hq⟩
    · injection h1 with h1; subst h1; exact hq.elim
  | .again, _, h2 => exact absurd rfl h2
  | .stop, h1, _ => cases h1
  | .panic, h1, _ => cases h1

theorem Seq.back {Q R : S → Prop} {body : Prog S L} {c c' : Config S L} (h : PRuns body c c')
    (hq : Seq Q R c'.2.2 c'.1) : Seq Q R c.2.2 c.1 := by
  induction h using Relation.ReflTransGen.head_induction_on with
  | refl => exact hq
  | head hs _ ih => exact Seq.back1 hs ih

theorem Seq.step {Q R : S → Prop} {body : Prog S L} (hb : ∀ s, Q s → Seq Q R body s)
    {c c' : Config S L} (h : Prog.step body c = some c') (hq : Seq Q R c.2.2 c.1) :
    Seq Q R c'.2.2 c'.1 := by
  obtain ⟨s, lk, p⟩ := c
  match p, h, hq with
  | .acq l true k, h1, hq =>
    simp only [Prog.step] at h1
    split at h1
    · injection h1 with h1; subst h1; exact hq
    · cases h1
  | .acq l false k, h1, hq =>
    simp only [Prog.step] at h1
    split at h1
    · injection h1 with h1; subst h1; exact hq
    · cases h1
  | .rel l true k, h1, hq => injection h1 with h1; subst h1; exact hq
  | .rel l false k, h1, hq => injection h1 with h1; subst h1; exact hq
  | .act g k, h1, hq =>
    obtain ⟨s', hg, hq⟩ := hq
    simp only [Prog.step, hg] at h1
    injection h1 with h1; subst h1; exact hq
  | .again, h1, hq => injection h1 with h1; subst h1; exact hb _ hq
  | .stop, h1, _ => cases h1
  | .panic, h1, _ => cases h1

/-- With a single thread, `Seq` holds in every reachable state. -/
theorem Seq.reachable {Q R : S → Prop} {body : Prog S L} (hb : ∀ s, Q s → Seq Q R body s) {s0 : S}
    (h0 : Q s0) {s : TState S L 1} (h : TState.Reachable body s0 s) : Seq Q R (s.prog 0) s.sh := by
  induction h with
  | refl => exact hb _ h0
  | tail _ hs ih =>
    obtain ⟨t, ht⟩ := hs
    obtain rfl : t = 0 := Subsingleton.elim _ _
    simp only [TState.stepOf] at ht
    split at ht
    · rename_i c sh lk p hstep
      injection ht with ht; subst ht
      simp only [Function.update_self]
      exact Seq.step hb hstep ih
    · cases ht

/-! ### Many threads -/

variable {V : L → Type}

/-- The two states agree on the data behind the locks in `H`. -/
def Agree (comp : (l : L) → S → V l) (H : L → Option Bool) (s s' : S) : Prop :=
  ∀ l, H l ≠ none → comp l s = comp l s'

/-- `p` is safe for a thread that holds the locks `H` and has seen the data in `s`: it takes locks it does
not hold, in an order allowed by `ord`, changes only data whose lock it holds in write mode, gives the data
back in a state satisfying `inv`, does not panic, and holds nothing at the end of a round. -/
def Safe (comp : (l : L) → S → V l) (inv : (l : L) → V l → Prop)
    (ord : (L → Option Bool) → S → L → Prop) : Prog S L → (L → Option Bool) → S → Prop
  | .acq l w k, H, s => H l = none ∧ ord H s l ∧ ∀ s', Agree comp H s s' → inv l (comp l s') →
      Safe comp inv ord k (Function.update H l (some w)) s'
  | .rel l w k, H, s => H l = some w ∧ inv l (comp l s) ∧
      Safe comp inv ord k (Function.update H l none) s
  | .act g k, H, s => ∀ s', Agree comp H s s' → ∃ s'', g s' = .ok s'' ∧
      (∀ l, H l ≠ some true → comp l s'' = comp l s') ∧ Safe comp inv ord (k s') H s''
  | .again, H, _ => ∀ l, H l = none
  | .stop, H, _ => ∀ l, H l = none
  | .panic, _, _ => False

/-- The global invariant. -/
structure GInv {T : Nat} (comp : (l : L) → S → V l) (inv : (l : L) → V l → Prop)
    (ord : (L → Option Bool) → S → L → Prop) (st : TState S L T)
    (H : Fin T → L → Option Bool) (K : Fin T → S) : Prop where
  safe : ∀ t, Safe comp inv ord (st.prog t) (H t) (K t)
  agree : ∀ t, Agree comp (H t) (K t) st.sh
  readers : ∀ l, (st.locks l).1 = (Finset.univ.filter (fun t => H t l = some false)).card
  writer : ∀ l, (st.locks l).2 = true ↔ ∃ t, H t l = some true
  excl : ∀ l t, H t l = some true → ∀ t', t' ≠ t → H t' l = none
  data : ∀ l, (∀ t, H t l ≠ some true) → inv l (comp l st.sh)


section ginv
variable {T : Nat} {comp : (l : L) → S → V l} {inv : (l : L) → V l → Prop}
  {ord : (L → Option Bool) → S → L → Prop} {st : TState S L T} {H : Fin T → L → Option Bool}
  {K : Fin T → S}

theorem upd2 (H : Fin T → L → Option Bool) (t u : Fin T) (l m : L) (v : Option Bool) :
    Function.update H t (Function.update (H t) l v) u m = if u = t ∧ m = l then v else H u m := by
  by_cases hu : u = t
  · subst hu
    by_cases hm : m = l
    · subst hm; simp
    · simp [hm]
  · simp [hu]

theorem count_other (H : Fin T → L → Option Bool) (t : Fin T) {l m : L} (v : Option Bool) (h : m ≠ l) :
    (Finset.univ.filter (fun u => Function.update H t (Function.update (H t) l v) u m = some false)) =
      Finset.univ.filter (fun u => H u m = some false) := by
  ext u; simp [upd2, h]

theorem count_same (H : Fin T → L → Option Bool) (t : Fin T) {l : L} (v : Option Bool)
    (h : (H t l = some false ↔ v = some false)) :
    (Finset.univ.filter (fun u => Function.update H t (Function.update (H t) l v) u l = some false)) =
      Finset.univ.filter (fun u => H u l = some false) := by
  ext u
  simp only [upd2, Finset.mem_filter, Finset.mem_univ, true_and, and_true]
  by_cases hu : u = t
  · subst hu; simp [h]
  · simp [hu]

theorem count_add (H : Fin T → L → Option Bool) (t : Fin T) {l : L} (h : H t l = none) :
    (Finset.univ.filter (fun u => Function.update H t (Function.update (H t) l (some false)) u l =
      some false)).card = (Finset.univ.filter (fun u => H u l = some false)).card + 1 := by
  rw [← Finset.card_insert_of_notMem (a := t) (by simp [h])]
  congr 1
  ext u
  simp only [upd2, Finset.mem_filter, Finset.mem_univ, true_and, and_true, Finset.mem_insert]
  by_cases hu : u = t <;> simp [hu]

theorem count_sub (H : Fin T → L → Option Bool) (t : Fin T) {l : L} (h : H t l = some false) :
    (Finset.univ.filter (fun u => Function.update H t (Function.update (H t) l none) u l =
      some false)).card = (Finset.univ.filter (fun u => H u l = some false)).card - 1 := by
  rw [← Finset.card_erase_of_mem (a := t) (by simp [h])]
  congr 1
  ext u
  simp only [upd2, Finset.mem_filter, Finset.mem_univ, true_and, and_true, Finset.mem_erase]
  by_cases hu : u = t <;> simp [hu]

theorem GInv.free (g : GInv comp inv ord st H K) {l : L} (h : st.locks l = (0, false)) (t : Fin T) :
    H t l = none := by
  have h1 := g.readers l
  have h2 := g.writer l
  rw [h] at h1 h2
  match hl : H t l with
  | none => rfl
  | some true => exact absurd (h2.2 ⟨t, hl⟩) (by simp)
  | some false =>
    have h3 := Finset.card_eq_zero.1 h1.symm
    have : t ∈ Finset.univ.filter (fun t => H t l = some false) := by simp [hl]
    rw [h3] at this
    simp at this

theorem GInv.noWriter (g : GInv comp inv ord st H K) {l : L} (h : (st.locks l).2 = false) (t : Fin T) :
    H t l ≠ some true := fun hl => by
  have := (g.writer l).2 ⟨t, hl⟩
  rw [h] at this
  cases this

theorem GInv.acq (g : GInv comp inv ord st H K) {t : Fin T} {l : L} {w : Bool} {k : Prog S L}
    (hp : st.prog t = .acq l w k) {hd : Holds}
    (hfree : if w then st.locks l = (0, false) ∧ hd = (0, true)
      else (st.locks l).2 = false ∧ hd = ((st.locks l).1 + 1, false)) :
    GInv comp inv ord ⟨st.sh, Function.update st.locks l hd, Function.update st.prog t k⟩
      (Function.update H t (Function.update (H t) l (some w))) (Function.update K t st.sh) := by
  have hs := g.safe t
  rw [hp] at hs
  obtain ⟨h1, _, h3⟩ := hs
  have hnw : ∀ u, H u l ≠ some true := by
    cases w
    · exact fun u => g.noWriter hfree.1 u
    · intro u; rw [g.free hfree.1 u]; simp
  have h4 := h3 st.sh (g.agree t) (g.data l hnw)
  refine ⟨fun u => ?_, fun u => ?_, fun m => ?_, fun m => ?_, fun m u => ?_, fun m => ?_⟩
  · by_cases hu : u = t
    · subst hu; simpa using h4
    · simpa [hu] using g.safe u
  · by_cases hu : u = t
    · subst hu; intro m _; simp
    · simpa [hu] using g.agree u
  · by_cases hm : m = l
    · subst hm
      cases w
      · simp only [Function.update_self, hfree.2, count_add H t h1, g.readers]
      · rw [count_same H t _ (by simp [h1]), ← g.readers]
        simp [hfree.1, hfree.2]
    · rw [count_other H t _ hm, ← g.readers]
      simp [hm]
  · by_cases hm : m = l
    · subst hm
      cases w
      · simp only [Function.update_self, hfree.2]
        refine ⟨fun h => by simp at h, fun ⟨u, hu⟩ => ?_⟩
        rw [upd2] at hu
        split at hu
        · cases hu
        · exact absurd hu (hnw u)
      · simp only [Function.update_self, hfree.2, true_iff]
        exact ⟨t, by simp⟩
    · simp only [Function.update_of_ne hm, g.writer m, upd2, hm, and_false, if_false]
  · intro h u' hu'
    rw [upd2] at h ⊢
    by_cases hm : m = l
    · subst hm
      split at h
      · rename_i hc
        obtain ⟨hc, -⟩ := hc
        subst hc
        rw [if_neg (by simp [hu'])]
        cases w
        · cases h
        · exact g.free hfree.1 u'
      · exact absurd h (hnw u)
    · rw [if_neg (by simp [hm])] at h ⊢
      exact g.excl m u h u' hu'
  · intro h
    refine g.data m fun u hu => ?_
    have := h u
    rw [upd2] at this
    split at this
    · rename_i hc
      obtain ⟨-, rfl⟩ := hc
      exact hnw u hu
    · exact this hu

theorem GInv.rel (g : GInv comp inv ord st H K) {t : Fin T} {l : L} {w : Bool} {k : Prog S L}
    (hp : st.prog t = .rel l w k) {hd : Holds}
    (hfree : hd = if w then ((st.locks l).1, false) else ((st.locks l).1 - 1, (st.locks l).2)) :
    GInv comp inv ord ⟨st.sh, Function.update st.locks l hd, Function.update st.prog t k⟩
      (Function.update H t (Function.update (H t) l none)) K := by
  have hs := g.safe t
  rw [hp] at hs
  obtain ⟨h1, h2, h3⟩ := hs
  have hco : comp l (K t) = comp l st.sh := g.agree t l (by simp [h1])
  refine ⟨fun u => ?_, fun u => ?_, fun m => ?_, fun m => ?_, fun m u => ?_, fun m => ?_⟩
  · by_cases hu : u = t
    · subst hu; simpa using h3
    · simpa [hu] using g.safe u
  · intro m hm
    rw [upd2] at hm
    split at hm
    · exact absurd rfl hm
    · exact g.agree u m hm
  · by_cases hm : m = l
    · subst hm
      cases w
      · simp only [Function.update_self, hfree, count_sub H t h1, g.readers]
        simp
      · rw [count_same H t _ (by simp [h1]), ← g.readers]
        simp [hfree]
    · rw [count_other H t _ hm, ← g.readers]
      simp [hm]
  · by_cases hm : m = l
    · subst hm
      simp only [Function.update_self, hfree]
      cases w
      · simp only [Bool.false_eq_true, if_false, g.writer, upd2, and_true]
        refine ⟨fun ⟨u, hu⟩ => ⟨u, ?_⟩, fun ⟨u, hu⟩ => ⟨u, ?_⟩⟩
        · rw [if_neg]
          · exact hu
          · rintro rfl; rw [h1] at hu; cases hu
        · split at hu
          · cases hu
          · exact hu
      · simp only [if_true, Bool.false_eq_true, false_iff, upd2, and_true]
        rintro ⟨u, hu⟩
        split at hu
        · cases hu
        · rename_i hut
          rw [g.excl m t h1 u hut] at hu
          cases hu
    · simp only [Function.update_of_ne hm, g.writer m, upd2, hm, and_false, if_false]
  · intro h u' hu'
    rw [upd2] at h ⊢
    split at h
    · cases h
    · split
      · rfl
      · exact g.excl m u h u' hu'
  · intro h
    by_cases hm : m = l
    · subst hm
      exact hco ▸ h2
    · refine g.data m fun u hu => ?_
      have := h u
      rw [upd2, if_neg (by simp [hm])] at this
      exact this hu

theorem GInv.act (g : GInv comp inv ord st H K) {t : Fin T} {f : S → Res S} {k : S → Prog S L}
    (hp : st.prog t = .act f k) :
    ∃ s', f st.sh = .ok s' ∧ GInv comp inv ord ⟨s', st.locks, Function.update st.prog t (k st.sh)⟩ H
      (Function.update K t s') := by
  have hs := g.safe t
  rw [hp] at hs
  obtain ⟨s', h1, h2, h3⟩ := hs st.sh (g.agree t)
  refine ⟨s', h1, fun u => ?_, fun u => ?_, g.readers, g.writer, g.excl, fun m h => ?_⟩
  · by_cases hu : u = t
    · subst hu; simpa using h3
    · simpa [hu] using g.safe u
  · by_cases hu : u = t
    · subst hu; intro m _; simp
    · intro m hm
      simp only [Function.update_of_ne hu]
      have h4 : H t m ≠ some true := fun h4 => hm (g.excl m t h4 u hu)
      exact (g.agree u m hm).trans (h2 m h4).symm
  · show inv m (comp m s')
    rw [h2 m (h t)]
    exact g.data m h

theorem GInv.again (g : GInv comp inv ord st H K) {body : Prog S L}
    (hb : ∀ s, Safe comp inv ord body (fun _ => none) s) {t : Fin T} (hp : st.prog t = .again) :
    GInv comp inv ord ⟨st.sh, st.locks, Function.update st.prog t body⟩ H K := by
  have hs := g.safe t
  rw [hp] at hs
  have hH : H t = fun _ => none := funext hs
  refine ⟨fun u => ?_, g.agree, g.readers, g.writer, g.excl, g.data⟩
  by_cases hu : u = t
  · subst hu; simp only [Function.update_self, hH]; exact hb _
  · simpa [hu] using g.safe u

theorem GInv.step {body : Prog S L} (hb : ∀ s, Safe comp inv ord body (fun _ => none) s)
    (g : GInv comp inv ord st H K) {st' : TState S L T} (h : TState.Step body st st') :
    ∃ H' K', GInv comp inv ord st' H' K' := by
  obtain ⟨t, ht⟩ := h
  simp only [TState.stepOf] at ht
  match hp : st.prog t with
  | .acq l true k =>
    rw [hp] at ht
    by_cases hf : st.locks l = (0, false)
    · simp only [Prog.step, if_pos hf] at ht
      injection ht with ht; subst ht
      exact ⟨_, _, g.acq hp (by simp [hf])⟩
    · simp [Prog.step, if_neg hf] at ht
  | .acq l false k =>
    rw [hp] at ht
    by_cases hf : (st.locks l).2 = false
    · simp only [Prog.step, if_pos hf] at ht
      injection ht with ht; subst ht
      exact ⟨_, _, g.acq hp (by simp [hf])⟩
    · simp [Prog.step, if_neg hf] at ht
  | .rel l true k =>
    rw [hp] at ht
    simp only [Prog.step] at ht
    injection ht with ht; subst ht
    exact ⟨_, _, g.rel hp (by simp)⟩
  | .rel l false k =>
    rw [hp] at ht
    simp only [Prog.step] at ht
    injection ht with ht; subst ht
    exact ⟨_, _, g.rel hp (by simp)⟩
  | .act f k =>
    rw [hp] at ht
    obtain ⟨s', h1, h2⟩ := g.act hp
    simp only [Prog.step, h1] at ht
    injection ht with ht; subst ht
    exact ⟨_, _, h2⟩
  | .again =>
    rw [hp] at ht
    simp only [Prog.step] at ht
    injection ht with ht; subst ht
    exact ⟨_, _, g.again hb hp⟩
  | .stop => rw [hp] at ht; simp [Prog.step] at ht
  | .panic => rw [hp] at ht; simp [Prog.step] at ht

theorem GInv.init {body : Prog S L} (hb : ∀ s, Safe comp inv ord body (fun _ => none) s) {s0 : S}
    (h0 : ∀ l, inv l (comp l s0)) :
    GInv comp inv ord (TState.init (T := T) body s0) (fun _ _ => none) (fun _ => s0) :=
  ⟨fun _ => hb s0, fun _ l h => absurd rfl h, by simp [TState.init], by simp [TState.init], by simp,
    fun l _ => h0 l⟩

theorem GInv.reachable {body : Prog S L} (hb : ∀ s, Safe comp inv ord body (fun _ => none) s) {s0 : S}
    (h0 : ∀ l, inv l (comp l s0)) (h : TState.Reachable body s0 st) :
    ∃ H K, GInv comp inv ord st H K := by
  induction h with
  | refl => exact ⟨_, _, GInv.init hb h0⟩
  | tail _ hs ih =>
    obtain ⟨H, K, g⟩ := ih
    exact GInv.step hb g hs

/-- A blocked thread waits for a lock that somebody holds. -/
theorem blocked_queued {body : Prog S L} {t : Fin T} (hb : st.Blocked body t) : st.Queued t := by
  obtain ⟨hb1, l, w, k, hp⟩ := hb
  refine ⟨l, w, k, hp, fun hl => ?_⟩
  cases w <;> simp [TState.stepOf, hp, Prog.step, hl] at hb1

/-- If every thread waits for a lock that somebody holds or has left the loop, and some thread waits, then some
thread waits for a lock out of order. -/
theorem GInv.deadlock (g : GInv comp inv ord st H K) (rank : L → Nat)
    (hall : ∀ t, st.Queued t ∨ st.prog t = .stop) (hex : ∃ t, st.Queued t) :
    ∃ t l w k, st.prog t = .acq l w k ∧ H t l = none ∧ ord (H t) (K t) l ∧
      Agree comp (H t) (K t) st.sh ∧ ∃ m, H t m ≠ none ∧ rank l ≤ rank m := by
  by_contra hno
  push Not at hno
  -- a waiting thread with a wanted lock of largest rank
  have key : ∀ n, ∀ t l w k, st.Queued t → st.prog t = .acq l w k → n ≤ rank l →
      ∃ t' l' w' k', st.Queued t' ∧ st.prog t' = .acq l' w' k' ∧ n + 1 ≤ rank l' := by
    intro n t l w k hb hp hn
    -- someone holds l
    have hheld : ∃ u, H u l ≠ none := by
      by_contra hn'
      push Not at hn'
      have hl : st.locks l = (0, false) := by
        have h1 := g.readers l
        have h2 := g.writer l
        have e1 : (st.locks l).1 = 0 := by rw [h1]; simp [hn']
        have e2 : (st.locks l).2 = false := by
          rw [Bool.eq_false_iff]; intro h; obtain ⟨u, hu⟩ := h2.1 h; rw [hn' u] at hu; cases hu
        rw [← e1, ← e2]
      obtain ⟨l1, w1, k1, hp1, hb1⟩ := hb
      rw [hp] at hp1
      injection hp1 with e _ _
      subst e
      exact hb1 hl
    obtain ⟨u, hu⟩ := hheld
    rcases hall u with hbu | hst
    · obtain ⟨l', w', k', hp', _⟩ := hbu
      have hs := g.safe u
      rw [hp'] at hs
      have := hno u l' w' k' hp' hs.1 hs.2.1 (g.agree u) l hu
      exact ⟨u, l', w', k', hall u |>.resolve_right (by simp [hp']), hp', by omega⟩
    · have hs := g.safe u
      rw [hst] at hs
      exact absurd (hs l) hu
  obtain ⟨t, hb⟩ := hex
  obtain ⟨l, w, k, hp, _⟩ := id hb
  have big : ∀ n, ∃ t l w k, st.Queued t ∧ st.prog t = .acq l w k ∧ n ≤ rank l := by
    intro n
    induction n with
    | zero => exact ⟨t, l, w, k, hb, hp, by omega⟩
    | succ n ih =>
      obtain ⟨t, l, w, k, hb, hp, hn⟩ := ih
      exact key n t l w k hb hp hn
  -- more ranks than threads
  have hex : ∃ N, ∀ t l w k, st.prog t = .acq l w k → rank l < N := by
    classical
    let f : Fin T → Nat := fun t => match st.prog t with
      | .acq l _ _ => rank l
      | _ => 0
    refine ⟨(Finset.univ.sup f) + 1, fun t l w k hp => ?_⟩
    have h1 : f t ≤ Finset.univ.sup f := Finset.le_sup (Finset.mem_univ t)
    have h2 : f t = rank l := by simp only [f, hp]
    omega
  obtain ⟨N, hN⟩ := hex
  obtain ⟨t, l, w, k, _, hp, hn⟩ := big N
  have := hN t l w k hp
  omega

end ginv

end generic

end Verif.Par
