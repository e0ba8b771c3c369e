import Verif.Lemmas.CliParse
import Verif.Model.Commands

/-! # The declarations of the tools are unambiguous, and reading the fields -/

namespace Verif

open Spec.Cli Model.Cli Model

/-- `CliWF` as a check. -/
def cliWFb (t : Tool) : Bool :=
  decide ((t.opts ++ helpOpts).filterMap Opt.short).Nodup && decide ((t.opts ++ helpOpts).filterMap Opt.long).Nodup &&
  decide (t.opts.map Opt.field).Nodup &&
  t.opts.all fun o => decide (o.action ≠ .print) &&
    match o.long with
    | none => true
    | some l => decide ('=' ∉ l) && decide (l ≠ [])

theorem cliWF_of {t : Tool} (h : cliWFb t = true) : CliWF t := by
  unfold cliWFb at h
  simp only [Bool.and_eq_true, decide_eq_true_eq, List.all_eq_true] at h
  obtain ⟨⟨⟨h1, h2⟩, h3⟩, h4⟩ := h
  refine ⟨?_, h2, h3, fun o ho => (h4 o ho).1, ?_, ?_⟩
  · rw [List.filterMap_append] at h1; exact (List.nodup_append.1 h1).1
  · intro o ho l hl
    have := (h4 o ho).2
    rw [hl] at this
    simp only [Bool.and_eq_true, decide_eq_true_eq] at this
    exact this.1
  · intro o ho hl
    have := (h4 o ho).2
    rw [hl] at this
    simp at this

/-- All tools except `rle`. -/
theorem tools_wf {t : Tool} (ht : t ∈ tools) (hr : t ≠ rleArgs) : CliWF t := by
  simp only [tools, List.mem_cons, List.not_mem_nil, or_false] at ht
  rcases ht with rfl | rfl | rfl | rfl | rfl | rfl | rfl | rfl | rfl | rfl | rfl | rfl | rfl | rfl | rfl | rfl | rfl
  all_goals first
    | exact absurd rfl hr
    | exact cliWF_of (by decide +kernel)

/-- In these tools no letter or name is used twice, the automatic ones included. -/
theorem tools_debugAsserts {t : Tool} (ht : t ∈ tools) (hr : t ≠ rleArgs) : debugAsserts t = true := by
  simp only [tools, List.mem_cons, List.not_mem_nil, or_false] at ht
  rcases ht with rfl | rfl | rfl | rfl | rfl | rfl | rfl | rfl | rfl | rfl | rfl | rfl | rfl | rfl | rfl | rfl | rfl
  all_goals first
    | exact absurd rfl hr
    | decide +kernel

theorem line_noRepeat {t : Tool} {argv : List (List Char)} {occ : List (Field × Val)} (h : Line t argv occ) :
    NoRepeat t occ := by
  obtain ⟨gs, _, _, _, h, _⟩ := h
  exact (noRepeat_iff t occ).2 h

theorem head_flags_mem {t : Tool} {w : List Char} {fs : List Field} {x : Option (Opt × Option (List Char))}
    (h : Head t w fs x) (f : Field) (hf : f ∈ fs) : ∃ o ∈ t.opts, o.field = f ∧ o.action = .setTrue := by
  have : ∀ os : List Opt, (∀ o ∈ os, o ∈ t.opts ∧ o.action = .setTrue) → f ∈ os.map Opt.field →
      ∃ o ∈ t.opts, o.field = f ∧ o.action = .setTrue := by
    intro os h hm
    obtain ⟨o, ho, rfl⟩ := List.mem_map.1 hm
    exact ⟨o, (h o ho).1, rfl, (h o ho).2⟩
  cases h with
  | flags fs cs hne h1 h2 hd => exact this fs h1 hf
  | opened fs cs o e h1 h2 ho hk hs hd => exact this fs h1 hf
  | attached fs cs o e v h1 h2 ho hk hs hd hv1 hv2 => exact this fs h1 hf
  | equals fs cs o e v h1 h2 ho hk hs hd => exact this fs h1 hf
  | longFlag o l ho ha hl => rw [List.mem_singleton] at hf; exact ⟨o, ho, hf.symm, ha⟩
  | longOpened o l ho ha hl => cases hf
  | longEquals o l v ho ha hl => cases hf

theorem forall₂_right {α β : Type} {R : α → β → Prop} {ss : List α} {vs : List β} (h : List.Forall₂ R ss vs) :
    ∀ v ∈ vs, ∃ s, R s v := by
  induction h with
  | nil => intro v hv; cases hv
  | cons h _ ih =>
    intro v hv
    rcases List.mem_cons.1 hv with rfl | hv
    · exact ⟨_, h⟩
    · exact ih v hv

/-- Every setting belongs to a declared option and has a value of its type. -/
theorem line_typed {t : Tool} {argv : List (List Char)} {occ : List (Field × Val)} (h : Line t argv occ)
    {f : Field} {v : Val} (hv : (f, v) ∈ occ) : ∃ o ∈ t.opts, o.field = f ∧
      ((o.action = .setTrue ∧ v = .on) ∨ ∃ k s, o.action.kind? = some k ∧ Denotes k s v) := by
  obtain ⟨gs, hg, _, rfl, _⟩ := h
  obtain ⟨g, hgm, hv⟩ := List.mem_flatMap.1 hv
  have hG := hg g hgm
  obtain ⟨g1, g2⟩ := g
  simp only at hG hv
  have flag : ∀ w fs x, Head t w fs x → (f, v) ∈ fs.map (fun f => (f, Val.on)) → ∃ o ∈ t.opts, o.field = f ∧
      ((o.action = .setTrue ∧ v = .on) ∨ ∃ k s, o.action.kind? = some k ∧ Denotes k s v) := by
    intro w fs x hh hm
    obtain ⟨f', hf', e⟩ := List.mem_map.1 hm
    cases e
    obtain ⟨o, h1, h2, h3⟩ := head_flags_mem hh f hf'
    exact ⟨o, h1, h2, Or.inl ⟨h3, rfl⟩⟩
  cases hG with
  | flags w fs hh => exact flag w fs _ hh hv
  | attached w fs o s k v' hh hk hd =>
    rcases List.mem_append.1 hv with hv | hv
    · exact flag w fs _ hh hv
    · rw [List.mem_singleton] at hv; cases hv
      exact ⟨o, head_opened_mem hh, rfl, Or.inr ⟨k, s, hk, hd⟩⟩
  | one w fs o s k v' hh hk hs hd =>
    rcases List.mem_append.1 hv with hv | hv
    · exact flag w fs _ hh hv
    · rw [List.mem_singleton] at hv; cases hv
      exact ⟨o, head_opened_mem hh, rfl, Or.inr ⟨k, s, hk, hd⟩⟩
  | many w fs o ss k vs hh ha hne hno hf =>
    rcases List.mem_append.1 hv with hv | hv
    · exact flag w fs _ hh hv
    · obtain ⟨v', hv', e⟩ := List.mem_map.1 hv
      cases e
      refine ⟨o, head_opened_mem hh, rfl, Or.inr ?_⟩
      have : ∃ s, Denotes k s v := forall₂_right hf v hv'
      obtain ⟨s, hs⟩ := this
      exact ⟨k, s, by rw [ha]; rfl, hs⟩

/-- A field that is not a list has at most one value. -/
theorem line_unique {t : Tool} {occ : List (Field × Val)} (h : NoRepeat t occ) {f : Field} (hr : ¬ Repeatable t f)
    {v v' : Val} (hv : (f, v) ∈ occ) (hv' : (f, v') ∈ occ) : v = v' := by
  by_contra hne
  have : Std.Symm (fun a b : Field × Val => a.1 = b.1 → Repeatable t a.1) := ⟨fun a b h e => e ▸ h e.symm⟩
  have := List.Pairwise.forall (R := fun a b : Field × Val => a.1 = b.1 → Repeatable t a.1) h hv hv' (by simpa using hne)
  exact hr (this rfl)

theorem findSome_iff {α β : Type} (p : α → Option β) (l : List α)
    (h : ∀ a ∈ l, ∀ b ∈ l, ∀ x y, p a = some x → p b = some y → x = y) (x : β) :
    l.findSome? p = some x ↔ ∃ a ∈ l, p a = some x := by
  constructor
  · intro h; exact List.exists_of_findSome?_eq_some h
  · rintro ⟨a, ha, hx⟩
    cases hf : l.findSome? p with
    | none => rw [List.findSome?_eq_none_iff] at hf; rw [hf a ha] at hx; cases hx
    | some y =>
      obtain ⟨b, hb, hy⟩ := List.exists_of_findSome?_eq_some hf
      rw [h a ha b hb x y hx hy]

theorem asStr_iff (f : Field) (p : Field × Val) (x : String) : asStr f p = some x ↔ p = (f, Val.str x.toList) := by
  obtain ⟨g, v⟩ := p
  cases v with
  | str s =>
    simp only [asStr, Prod.mk.injEq, Val.str.injEq]
    constructor
    · intro h
      split at h
      · rename_i hg; cases h; exact ⟨hg, by simp⟩
      · cases h
    · rintro ⟨rfl, rfl⟩; simp
  | _ => simp [asStr]

theorem asNum_iff (f : Field) (p : Field × Val) (x : Nat) : asNum f p = some x ↔ p = (f, Val.num x) := by
  obtain ⟨g, v⟩ := p
  cases v <;> simp [asNum]

theorem asWord_iff (f : Field) (p : Field × Val) (x : WordName) : asWord f p = some x ↔ p = (f, Val.word x) := by
  obtain ⟨g, v⟩ := p
  cases v <;> simp [asWord]

theorem getStr_iff {t : Tool} {occ : List (Field × Val)} (h : NoRepeat t occ) {f : Field} (hr : ¬ Repeatable t f)
    (s : String) : getStr occ f = some s ↔ (f, Val.str s.toList) ∈ occ := by
  unfold getStr
  rw [findSome_iff]
  · simp only [asStr_iff]
    constructor
    · rintro ⟨a, ha, rfl⟩; exact ha
    · intro h; exact ⟨_, h, rfl⟩
  · intro a ha b hb x y hx hy
    rw [asStr_iff] at hx hy
    subst hx hy
    have := line_unique h hr ha hb
    simpa [String.toList_inj] using this

theorem getNum_eq {t : Tool} {occ : List (Field × Val)} (h : NoRepeat t occ) {f : Field} (hr : ¬ Repeatable t f)
    (d n : Nat) (hn : (f, Val.num n) ∈ occ) : getNum occ f d = n := by
  unfold getNum
  have : occ.findSome? (asNum f) = some n := by
    rw [findSome_iff]
    · exact ⟨_, hn, (asNum_iff _ _ _).2 rfl⟩
    · intro a ha b hb x y hx hy
      rw [asNum_iff] at hx hy
      subst hx hy
      have := line_unique h hr ha hb
      simpa using this
  rw [this]; rfl

theorem getNum_default {occ : List (Field × Val)} {f : Field} (d : Nat) (hn : ∀ n, (f, Val.num n) ∉ occ) :
    getNum occ f d = d := by
  unfold getNum
  have : occ.findSome? (asNum f) = none := by
    rw [List.findSome?_eq_none_iff]
    intro a ha
    by_contra hne
    obtain ⟨x, hx⟩ := Option.ne_none_iff_exists'.1 hne
    rw [asNum_iff] at hx
    subst hx
    exact hn _ ha
  rw [this]; rfl

theorem getWord_eq {t : Tool} {occ : List (Field × Val)} (h : NoRepeat t occ) {f : Field} (hr : ¬ Repeatable t f)
    (n : WordName) (hn : (f, Val.word n) ∈ occ) : getWord occ f = n := by
  unfold getWord
  have : occ.findSome? (asWord f) = some n := by
    rw [findSome_iff]
    · exact ⟨_, hn, (asWord_iff _ _ _).2 rfl⟩
    · intro a ha b hb x y hx hy
      rw [asWord_iff] at hx hy
      subst hx hy
      have := line_unique h hr ha hb
      simpa using this
  rw [this]; rfl

theorem getWord_default {occ : List (Field × Val)} {f : Field} (hn : ∀ n, (f, Val.word n) ∉ occ) :
    getWord occ f = .fibonacci := by
  unfold getWord
  have : occ.findSome? (asWord f) = none := by
    rw [List.findSome?_eq_none_iff]
    intro a ha
    by_contra hne
    obtain ⟨x, hx⟩ := Option.ne_none_iff_exists'.1 hne
    rw [asWord_iff] at hx
    subst hx
    exact hn _ ha
  rw [this]; rfl

theorem getFlag_iff (occ : List (Field × Val)) (f : Field) : getFlag occ f = true ↔ ∃ v, (f, v) ∈ occ := by
  unfold getFlag
  rw [List.any_eq_true]
  constructor
  · rintro ⟨⟨g, v⟩, hm, h⟩; rw [decide_eq_true_eq] at h; cases h; exact ⟨v, hm⟩
  · rintro ⟨v, h⟩; exact ⟨_, h, by simp⟩

end Verif
