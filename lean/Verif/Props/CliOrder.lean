import Verif.Props.Cli

/-! # C101: what an accepted command line means; C102: whole commands -/

namespace Verif.Props

open Verif Spec Spec.Cli Model Model.Cli

/-- The settings of one field, in order. -/
def settings (occ : List (Field × Val)) (f : Field) : List Val := (occ.filter fun p => decide (p.1 = f)).map Prod.snd

theorem filterMap_filter_eq {α β : Type} (p : α → Bool) (g : α → Option β) (l : List α)
    (h : ∀ a, p a = false → g a = none) : l.filterMap g = (l.filter p).filterMap g := by
  induction l with
  | nil => rfl
  | cons a l ih =>
    cases hp : p a with
    | true => rw [List.filter_cons_of_pos hp, List.filterMap_cons, List.filterMap_cons, ih]
    | false => rw [List.filter_cons_of_neg (by simp [hp]), List.filterMap_cons, h a hp, ih]

theorem findSome_filterMap {α β : Type} (g : α → Option β) (l : List α) :
    l.findSome? g = (l.filterMap g).head? := by
  induction l with
  | nil => rfl
  | cons a l ih =>
    rw [List.findSome?_cons, List.filterMap_cons]
    cases g a with
    | none => exact ih
    | some x => rfl

theorem filter_of_settings {occ : List (Field × Val)} {f : Field} :
    occ.filter (fun p => decide (p.1 = f)) = (settings occ f).map fun v => (f, v) := by
  unfold settings
  induction occ with
  | nil => rfl
  | cons a l ih =>
    by_cases h : a.1 = f
    · rw [List.filter_cons_of_pos (by simpa using h), List.map_cons, List.map_cons, ← ih, ← h]
    · rw [List.filter_cons_of_neg (by simpa using h)]; exact ih

theorem fields_congr {occ occ' : List (Field × Val)} (h : ∀ f, settings occ f = settings occ' f) :
    (∀ f, getStr occ f = getStr occ' f) ∧ (∀ f d, getNum occ f d = getNum occ' f d) ∧
    (∀ f, getFlag occ f = getFlag occ' f) ∧ (∀ f, getNums occ f = getNums occ' f) ∧
    (∀ f, getWord occ f = getWord occ' f) := by
  have hf : ∀ f, occ.filter (fun p => decide (p.1 = f)) = occ'.filter (fun p => decide (p.1 = f)) := by
    intro f; rw [filter_of_settings, filter_of_settings, h f]
  have key : ∀ {β : Type} (g : Field → Field × Val → Option β), (∀ f p, p.1 ≠ f → g f p = none) →
      ∀ f, occ.filterMap (g f) = occ'.filterMap (g f) := by
    intro β g hg f
    rw [filterMap_filter_eq (fun p : Field × Val => decide (p.1 = f)) (g f) occ (fun a ha => hg f a (by simpa using ha)), hf f,
      ← filterMap_filter_eq (fun p : Field × Val => decide (p.1 = f)) (g f) occ' (fun a ha => hg f a (by simpa using ha))]
  have ks := key asStr (by intro f p hp; unfold asStr; split <;> simp [hp])
  have kn := key asNum (by intro f p hp; unfold asNum; split <;> simp [hp])
  have kw := key asWord (by intro f p hp; unfold asWord; split <;> simp [hp])
  refine ⟨fun f => ?_, fun f d => ?_, fun f => ?_, kn, fun f => ?_⟩
  · unfold getStr; rw [findSome_filterMap, findSome_filterMap, ks]
  · unfold getNum; rw [findSome_filterMap, findSome_filterMap, kn]
  · have : ∀ l : List (Field × Val), (l.any fun p => decide (p.1 = f)) = !(l.filter fun p => decide (p.1 = f)).isEmpty := by
      intro l
      induction l with
      | nil => rfl
      | cons a l ih =>
        by_cases h : a.1 = f
        · rw [List.filter_cons_of_pos (by simpa using h)]; simp [h]
        · rw [List.filter_cons_of_neg (by simpa using h), List.any_cons, ih]; simp [h]
    unfold getFlag; rw [this, this, hf]
  · unfold getWord; rw [findSome_filterMap, findSome_filterMap, kw]

theorem settings_short {t : Tool} {occ : List (Field × Val)} (h : NoRepeat t occ) {f : Field} (hr : ¬ Repeatable t f) :
    (settings occ f).length ≤ 1 := by
  have hp : (occ.filter fun p => decide (p.1 = f)).Pairwise fun a b => a.1 = b.1 → Repeatable t a.1 :=
    List.Pairwise.filter _ h
  unfold settings
  rw [List.length_map]
  by_contra hl
  push Not at hl
  match hm : occ.filter fun p => decide (p.1 = f) with
  | [] => rw [hm] at hl; simp at hl
  | [a] => rw [hm] at hl; simp at hl
  | a :: b :: r =>
    have ha : a.1 = f := by
      have : a ∈ occ.filter fun p => decide (p.1 = f) := by rw [hm]; exact List.mem_cons_self
      simpa using (List.mem_filter.1 this).2
    have hb : b.1 = f := by
      have : b ∈ occ.filter fun p => decide (p.1 = f) := by rw [hm]; simp
      simpa using (List.mem_filter.1 this).2
    rw [hm] at hp
    have := (List.pairwise_cons.1 hp).1 b List.mem_cons_self (ha.trans hb.symm)
    exact hr (ha ▸ this)

/-- C101: the order of the options does not matter.  Two accepted command lines of a command that make the same settings,
in any order and in any spelling, have the same effect; only the values of a list option (`escape -f`, `-t`,
`is_stringattractor -a`) have to come in the same order. -/
theorem C101_order (E : Env) (t : Tool) (c : List (List Char) → World → World × Res Nat) (hc : (t, c) ∈ commands E)
    (argv argv' : List (List Char)) (occ occ' : List (Field × Val)) (h : Line t argv occ) (h' : Line t argv' occ')
    (hperm : occ.Perm occ') (hlist : ∀ f, Repeatable t f → settings occ f = settings occ' f) (w : World) :
    c argv w = c argv' w := by
  obtain ⟨ht, hr, run, hrun, hcongr⟩ := commands_shape E t c hc
  have e1 := (C100_command_lines ht hr argv occ).2 h
  have e2 := (C100_command_lines ht hr argv' occ').2 h'
  have hset : ∀ f, settings occ f = settings occ' f := by
    intro f
    by_cases hrep : Repeatable t f
    · exact hlist f hrep
    · have hl := settings_short (line_noRepeat h) hrep
      have hp : (settings occ f).Perm (settings occ' f) := (hperm.filter _).map _
      match hm : settings occ f with
      | [] => rw [hm] at hp; exact (List.nil_perm.1 hp).symm
      | [a] => rw [hm] at hp; exact List.singleton_perm.1 hp
      | a :: b :: r => rw [hm] at hl; simp at hl
  obtain ⟨g1, g2, g3, g4, g5⟩ := fields_congr hset
  rw [hrun, hrun, withArgs, withArgs, parseIn_wf ht hr, parseIn_wf ht hr, e1, e2]
  exact hcongr w occ occ' g1 g2 g3 g4 g5

/-- C101: the fields the program sees are the settings of the command line, or the default: the file name given, the number
given, whether the flag was given, the list of numbers in the order given. -/
theorem C101_fields {t : Tool} (ht : t ∈ tools) (hr : t ≠ rleArgs) {argv : List (List Char)} {occ : List (Field × Val)}
    (h : Line t argv occ) (o : Opt) (ho : o ∈ t.opts) :
    (o.action = .set .str → ∀ s, getStr occ o.field = some s ↔ (o.field, .str s.toList) ∈ occ) ∧
    (o.action = .set .usize ∨ o.action = .set .u8 → ∀ d,
      (∀ n, (o.field, .num n) ∈ occ → getNum occ o.field d = n ∧ n < 2 ^ 64 ∧ (o.action = .set .u8 → n < 256)) ∧
      ((∀ v, (o.field, v) ∉ occ) → getNum occ o.field d = d)) ∧
    (o.action = .setTrue → (getFlag occ o.field = true ↔ (o.field, .on) ∈ occ)) ∧
    (o.action = .append .u8 ∨ o.action = .appendMany .u64 →
      (getNums occ o.field).map Val.num = settings occ o.field) ∧
    (o.action = .set .word → ∀ n, (o.field, .word n) ∈ occ → getWord occ o.field = n) := by
  have hwf := tools_wf ht hr
  have hnr := line_noRepeat h
  have typed : ∀ v, (o.field, v) ∈ occ →
      ((o.action = .setTrue ∧ v = .on) ∨ ∃ k s, o.action.kind? = some k ∧ Denotes k s v) := by
    intro v hv
    obtain ⟨p, hp, e, hh⟩ := line_typed h hv
    rw [field_unique hwf hp ho e] at hh
    exact hh
  have hrep : ∀ k, o.action = .set k → ¬ Repeatable t o.field := by
    intro k hk; rw [repeatable_iff hwf ho, hk]; simp [Action.once]
  refine ⟨fun ha s => getStr_iff hnr (hrep _ ha) s, ?_, ?_, ?_, fun ha n hn => getWord_eq hnr (hrep _ ha) n hn⟩
  · intro ha d
    refine ⟨fun n hn => ⟨?_, ?_⟩, fun hn => getNum_default d fun n => hn _⟩
    · rcases ha with ha | ha <;> exact getNum_eq hnr (hrep _ ha) d n hn
    · rcases typed _ hn with ⟨h1, _⟩ | ⟨k, s, hk, hd⟩
      · rcases ha with ha | ha <;> rw [ha] at h1 <;> cases h1
      · rcases ha with ha | ha <;> rw [ha] at hk <;> cases hk
        · obtain ⟨m, hm, hlt, _⟩ := hd
          cases hm
          exact ⟨hlt, fun h1 => by rw [ha] at h1; cases h1⟩
        · obtain ⟨m, hm, hlt, _⟩ := hd
          cases hm
          exact ⟨by omega, fun _ => hlt⟩
  · intro ha
    rw [getFlag_iff]
    constructor
    · rintro ⟨v, hv⟩
      rcases typed v hv with ⟨_, rfl⟩ | ⟨k, s, hk, _⟩
      · exact hv
      · rw [ha] at hk; cases hk
    · intro hv; exact ⟨_, hv⟩
  · intro ha
    have hnum : ∀ v, (o.field, v) ∈ occ → ∃ n, v = .num n := by
      intro v hv
      rcases typed v hv with ⟨h1, _⟩ | ⟨k, s, hk, hd⟩
      · rcases ha with ha | ha <;> rw [ha] at h1 <;> cases h1
      · rcases ha with ha | ha <;> rw [ha] at hk <;> cases hk <;>
          · obtain ⟨m, hm, _⟩ := hd; exact ⟨m, hm⟩
    clear h hnr typed
    unfold getNums settings
    induction occ with
    | nil => rfl
    | cons a l ih =>
      obtain ⟨g, v⟩ := a
      have ih' := ih fun v hv => hnum v (List.mem_cons_of_mem _ hv)
      by_cases hg : g = o.field
      · subst hg
        obtain ⟨n, rfl⟩ := hnum v List.mem_cons_self
        rw [List.filter_cons_of_pos (by simp), List.map_cons, List.filterMap_cons_some (b := n) (by simp [asNum]),
          List.map_cons, ih']
      · rw [List.filter_cons_of_neg (by simpa using hg), List.filterMap_cons_none, ih']
        cases v <;> simp [asNum, hg]

/-! ## whole commands -/

theorem run_of_line {E : Env} {t : Tool} (ht : t ∈ tools) (hr : t ≠ rleArgs) {argv : List (List Char)}
    {occ : List (Field × Val)} (h : Line t argv occ) (w : World) (run : List (Field × Val) → World × Res Nat) :
    withArgs E.m t E.usage argv w run = run occ := by
  rw [withArgs, parseIn_wf ht hr, (C100_command_lines ht hr argv occ).2 h]

/-- C102: `reverse` with input and output file, however the command line is written: the output file is the input
reversed, nothing else changes, exit status 0. -/
theorem C102_reverse (E : Env) (argv : List (List Char)) (occ : List (Field × Val)) (h : Line reverseArgs argv occ)
    (i o : String) (hocc : occ.Perm [(.infilename, .str i.toList), (.outfilename, .str o.toList)]) (w : World)
    (c : List UInt8) (hsize : c.length < 18446744073709551616) (hio : i ≠ o) (hc : E.creatable o = true)
    (hi : w.files i = some c) :
    ∃ w', reverseCmd E.m E.usage E.creatable argv (delivered E.stdin) w = (w', .ok 0) ∧ Wrote w o c.reverse w' := by
  have ht : reverseArgs ∈ tools := by simp [tools]
  have hr : reverseArgs ≠ rleArgs := fun e => absurd (congrArg Tool.opts e) (by decide +kernel)
  have F := C101_fields ht hr h
  have h1 : getStr occ .infilename = some i := ((F optIn (by simp [reverseArgs])).1 rfl i).2 (hocc.mem_iff.2 (by simp [optIn]))
  have h2 : getStr occ .outfilename = some o :=
    ((F optOut (by simp [reverseArgs])).1 rfl o).2 (hocc.mem_iff.2 (by simp [optOut]))
  have h3 : getNum occ .prefixlength 0 = 0 :=
    ((F optPrefix (by simp [reverseArgs])).2.1 (Or.inl rfl) 0).2 (fun v hv => by
      have := hocc.mem_iff.1 hv; simp [optPrefix] at this)
  obtain ⟨w', g1, g2⟩ := C67_reverse_files E.creatable i o 0 (delivered E.stdin) w c hsize hio hc hi
  refine ⟨w', ?_, by simpa using g2⟩
  unfold reverseCmd
  rw [run_of_line ht hr h]
  simp only [h1, h2, h3, g1]
  rfl

/-- C102: `bwt` with input and output file, however the command line is written. -/
theorem C102_bwt (E : Env) (hs : SortsSuffixes E.sufsort) (argv : List (List Char)) (occ : List (Field × Val))
    (h : Line bwtArgs argv occ) (i o : String)
    (hocc : occ.Perm [(.infilename, .str i.toList), (.outfilename, .str o.toList)]) (w : World)
    (c : List UInt8) (hsize : c.length < 2147483647) (h0 : ∀ x ∈ c, x ≠ 0) (hc : E.creatable o = true)
    (hi : w.files i = some c) :
    ∃ w' b, bwtCmd E.m E.usage E.creatable E.sufsort argv (delivered E.stdin) w = (w', .ok 0) ∧ Wrote w o b w' ∧
      IsMatrixBwt (c ++ [0]) b := by
  have ht : bwtArgs ∈ tools := by simp [tools]
  have hr : bwtArgs ≠ rleArgs := fun e => absurd (congrArg Tool.opts e) (by decide +kernel)
  have F := C101_fields ht hr h
  have h1 : getStr occ .infilename = some i := ((F optIn (by simp [bwtArgs])).1 rfl i).2 (hocc.mem_iff.2 (by simp [optIn]))
  have h2 : getStr occ .outfilename = some o :=
    ((F optOut (by simp [bwtArgs])).1 rfl o).2 (hocc.mem_iff.2 (by simp [optOut]))
  have h3 : getNum occ .prefixlength 0 = 0 :=
    ((F optPrefix (by simp [bwtArgs])).2.1 (Or.inl rfl) 0).2 (fun v hv => by
      have := hocc.mem_iff.1 hv; simp [optPrefix] at this)
  have h4 : getFlag occ .useMatrix = false := by
    rw [Bool.eq_false_iff]
    intro hf
    have := hocc.mem_iff.1 (((F optMatrix (by simp [bwtArgs])).2.2.1 rfl).1 hf)
    simp [optMatrix] at this
  have h5 : getFlag occ .noDollar = false := by
    rw [Bool.eq_false_iff]
    intro hf
    have := hocc.mem_iff.1 (((F optNoDollar (by simp [bwtArgs])).2.2.1 rfl).1 hf)
    simp [optNoDollar] at this
  obtain ⟨w', b, g1, g2, g3⟩ := C67_bwt_files E.creatable E.sufsort hs i o (delivered E.stdin) w c hsize h0 hc hi
  refine ⟨w', b, ?_, g2, g3⟩
  unfold bwtCmd
  rw [run_of_line ht hr h]
  simp only [h1, h2, h3, h4, h5, g1]
  rfl

/-- C102: `mtf` with input and output file, however the command line is written. -/
theorem C102_mtf (E : Env) (argv : List (List Char)) (occ : List (Field × Val)) (h : Line mtfArgs argv occ)
    (i o : String) (hocc : occ.Perm [(.infilename, .str i.toList), (.outfilename, .str o.toList)]) (w : World)
    (c : List UInt8) (h255 : ∀ x ∈ c, x ≠ 255) (hio : i ≠ o) (hc : E.creatable o = true) (hi : w.files i = some c) :
    ∃ w' out, mtfCmd E.m E.usage E.creatable argv E.stdin w = (w', .ok 0) ∧ Wrote w o out w' ∧
      mtfDecode allBytes out = c := by
  have ht : mtfArgs ∈ tools := by simp [tools]
  have hr : mtfArgs ≠ rleArgs := fun e => absurd (congrArg Tool.opts e) (by decide +kernel)
  have F := C101_fields ht hr h
  have h1 : getStr occ .infilename = some i := ((F optIn (by simp [mtfArgs])).1 rfl i).2 (hocc.mem_iff.2 (by simp [optIn]))
  have h2 : getStr occ .outfilename = some o :=
    ((F optOut (by simp [mtfArgs])).1 rfl o).2 (hocc.mem_iff.2 (by simp [optOut]))
  obtain ⟨w', e, out, g1, g2, g3⟩ := C67_mtf_files E.creatable i o E.stdin w c hio hc hi
  obtain ⟨rfl, g4⟩ := g3 h255
  refine ⟨w', out, ?_, g2, g4⟩
  unfold mtfCmd
  rw [run_of_line ht hr h]
  simp only [h1, h2, g1]
  rfl

/-- C102: `is_stringattractor` with a file and positions, however the command line is written: exit status 0 iff the
positions are an attractor of the file. -/
theorem C102_attractor (E : Env) (hs : SortsSuffixes E.sufsort) (argv : List (List Char)) (occ : List (Field × Val))
    (h : Line isStringattractorArgs argv occ) (i : String) (positions : List Nat)
    (hi : (.infilename, .str i.toList) ∈ occ) (hp : ∀ v, (.prefixlength, v) ∉ occ)
    (ha : settings occ .attractor = positions.map Val.num) (w : World) (T : List UInt8) (hf : w.files i = some T)
    (h0 : T ≠ []) (hT : ∀ x ∈ T, x ≠ 0) (hlen : T.length < 2147483647) :
    (isStringattractorCmd E.m E.usage E.sufsort argv (delivered E.stdin) w).2 = .ok 0 ↔
      (∀ p ∈ positions, p ≤ T.length) ∧ IsAttractor T positions := by
  have ht : isStringattractorArgs ∈ tools := by simp [tools]
  have hr : isStringattractorArgs ≠ rleArgs := fun e => absurd (congrArg Tool.opts e) (by decide +kernel)
  have F := C101_fields ht hr h
  have h1 : getStr occ .infilename = some i := ((F optIn (by simp [isStringattractorArgs])).1 rfl i).2 hi
  have h3 : getNum occ .prefixlength 0 = 0 :=
    ((F optPrefix (by simp [isStringattractorArgs])).2.1 (Or.inl rfl) 0).2 hp
  have h4 : getNums occ .attractor = positions := by
    have := (F ⟨.attractor, some 'a', some "attractor".toList, .appendMany .u64⟩ (by simp [isStringattractorArgs])).2.2.2.1
      (Or.inr rfl)
    simp only at this
    rw [ha] at this
    exact List.map_injective_iff.2 (fun a b hab => by cases hab; rfl) this
  have key := (C70_exit_status E.sufsort hs i (delivered E.stdin) w T hf h0 hT hlen positions).2.1
  rw [← key]
  unfold isStringattractorCmd isStringattractorMain
  rw [run_of_line ht hr h]
  simp only [h1, h3, h4]
  cases isStringattractorRun E.sufsort positions (some i) 0 (delivered E.stdin) w with
  | error e =>
    simp only
    constructor <;> intro h <;> cases h
  | ok r =>
    simp only [ok_bind, pure_ok]

/-- C102: the exit status 2 of `is_stringattractor` has two meanings.  For every text file over ASCII, the (accepted)
command line `-i file -a 0 1 …` with positions that are no attractor, and any rejected command line, for instance one with
the positions separated by a comma, both end with status 2. -/
theorem C102_status_two (E : Env) (hs : SortsSuffixes E.sufsort) (argv : List (List Char)) (occ : List (Field × Val))
    (h : Line isStringattractorArgs argv occ) (i : String) (positions : List Nat)
    (hi : (.infilename, .str i.toList) ∈ occ) (hp : ∀ v, (.prefixlength, v) ∉ occ)
    (ha : settings occ .attractor = positions.map Val.num) (w : World) (T : List UInt8) (hf : w.files i = some T)
    (h0 : T ≠ []) (hT : ∀ x ∈ T, 0 < x ∧ x < 128) (hlen : T.length < 2147483647) (v : List Char) (hv : ',' ∈ v)
    (hd : ¬ OptionLike v) (rest : List (List Char)) :
    ((isStringattractorCmd E.m E.usage E.sufsort argv (delivered E.stdin) w).2 = .ok 2 ↔
      (∀ p ∈ positions, p ≤ T.length) ∧ ¬ IsAttractor T positions) ∧
    isStringattractorCmd E.m E.usage E.sufsort ("-a".toList :: v :: rest) (delivered E.stdin) w = (w, .ok 2) := by
  have ht : isStringattractorArgs ∈ tools := by simp [tools]
  have hr : isStringattractorArgs ≠ rleArgs := fun e => absurd (congrArg Tool.opts e) (by decide +kernel)
  constructor
  · have F := C101_fields ht hr h
    have h1 : getStr occ .infilename = some i := ((F optIn (by simp [isStringattractorArgs])).1 rfl i).2 hi
    have h3 : getNum occ .prefixlength 0 = 0 :=
      ((F optPrefix (by simp [isStringattractorArgs])).2.1 (Or.inl rfl) 0).2 hp
    have h4 : getNums occ .attractor = positions := by
      have := (F ⟨.attractor, some 'a', some "attractor".toList, .appendMany .u64⟩ (by simp [isStringattractorArgs])).2.2.2.1
        (Or.inr rfl)
      simp only at this
      rw [ha] at this
      exact List.map_injective_iff.2 (fun a b hab => by cases hab; rfl) this
    have key := (C70_exit_status E.sufsort hs i (delivered E.stdin) w T hf h0
      (fun x hx => by have := (hT x hx).1; rintro rfl; exact absurd this (by decide)) hlen positions).2.2
      fun x hx => (hT x hx).2
    rw [← key]
    unfold isStringattractorCmd isStringattractorMain
    rw [run_of_line ht hr h]
    simp only [h1, h3, h4]
    cases isStringattractorRun E.sufsort positions (some i) 0 (delivered E.stdin) w with
    | error e =>
      simp only
      constructor <;> intro h <;> cases h
    | ok r =>
      simp only [ok_bind, pure_ok]
  · have hnone : parseVal .u64 v = none := by
      cases hp : parseVal .u64 v with
      | none => rfl
      | some x =>
        obtain ⟨n, -, -, h⟩ := (parseVal_iff .u64 v x).1 hp
        exfalso
        have hnd : ¬ IsDigit ',' := by unfold IsDigit; decide
        rcases h with h | ⟨r, rfl, h⟩
        · exact hnd (h.2.1 _ hv)
        · rcases List.mem_cons.1 hv with h' | h'
          · exact absurd h' (by decide)
          · exact hnd (h.2.1 _ h')
    have key : steps isStringattractorArgs ⟨[], none, false⟩ ["-a".toList, v] = .error 2 := by
      have h1 : ∃ o, o.action = .appendMany .u64 ∧
          step isStringattractorArgs ⟨[], none, false⟩ "-a".toList = .ok ⟨[], some (o, false), false⟩ := ⟨_, rfl, rfl⟩
      obtain ⟨o, ho, h1⟩ := h1
      rw [steps, h1]
      simp only
      rw [steps, step_value _ _ _ rfl hd]
      unfold stepValue store
      simp only [ho, Action.kind?, hnone]
    have hp : parse isStringattractorArgs ("-a".toList :: v :: rest) = .error 2 := by
      unfold parse
      rw [show "-a".toList :: v :: rest = ["-a".toList, v] ++ rest from rfl, steps_append, key]
    unfold isStringattractorCmd
    rw [withArgs, parseIn_wf ht hr, hp]
    rfl

/-! ## examples -/

/-- `bwt -un --infilename=a -o b -p +07 --` is accepted and sets five fields; so is `-ia -ob`, and with the positions of
an attractor written in several ways. -/
example : Line bwtArgs (["-un", "--infilename=a", "-o", "b", "-p", "+07", "--"].map String.toList)
      [(.useMatrix, .on), (.noDollar, .on), (.infilename, .str ['a']), (.outfilename, .str ['b']), (.prefixlength, .num 7)] ∧
    Line reverseArgs (["-ob", "-i=a"].map String.toList) [(.outfilename, .str ['b']), (.infilename, .str ['a'])] ∧
    Line isStringattractorArgs (["-a", "0", "3", "--attractor=5", "-if", "-a7"].map String.toList)
      [(.attractor, .num 0), (.attractor, .num 3), (.attractor, .num 5), (.infilename, .str ['f']), (.attractor, .num 7)] := by
  refine ⟨(C100_command_lines (by simp [tools]) (fun e => absurd (congrArg Tool.opts e) (by decide +kernel)) _ _).1 rfl,
    (C100_command_lines (by simp [tools]) (fun e => absurd (congrArg Tool.opts e) (by decide +kernel)) _ _).1 rfl,
    (C100_command_lines (by simp [tools]) (fun e => absurd (congrArg Tool.opts e) (by decide +kernel)) _ _).1 rfl⟩

/-- Rejected: an option twice, an unknown letter, a missing value, a positional argument, a number that does not fit. -/
example : ∀ argv ∈ [["-i", "a", "-ib"], ["-x"], ["-i"], ["a"], ["-p", "18446744073709551616"], ["--no-dollar=1"], ["-p", "-1"],
    ["--", "a"]], ¬ ∃ occ, Line bwtArgs (argv.map String.toList) occ := by
  intro argv hm
  rintro ⟨occ, h⟩
  rw [← C100_command_lines (by simp [tools]) (fun e => absurd (congrArg Tool.opts e) (by decide +kernel))] at h
  have : ∀ argv ∈ [["-i", "a", "-ib"], ["-x"], ["-i"], ["a"], ["-p", "18446744073709551616"], ["--no-dollar=1"], ["-p", "-1"],
    ["--", "a"]], (parse bwtArgs (argv.map String.toList) matches .ok _) = false := by decide +kernel
  have := this argv hm
  rw [h] at this
  cases this

end Verif.Props
