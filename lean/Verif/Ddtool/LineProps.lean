import Verif.Ddtool.Line
import Verif.Ddtool.ConfigProps
import Verif.Wrapper.DdebugProps
import Verif.Float.Double

/-!
# Property C101: what the sets found by `vfc_ddebug` say about the program
-/

namespace Verif.Ddtool
open Verif Verif.Wrapper

variable {τ O V Out G K : Type}

/-! ## Programs without filters -/

/-- A run in which the backends do the operations whose return addresses satisfy `f`, the machine the others. -/
def exec (P : Machine τ O V Out) (native : O → V) (back : O → G → V × G) (f : Nat → Bool) : Nat → τ → G → End Out
  | 0, _, _ => .cut
  | n + 1, s, g =>
    match P s with
    | .inl o => .out o
    | .inr (r, o, k) =>
      if f r then exec P native back f n (k (back o g).1) (back o g).2 else exec P native back f n (k (native o)) g

/-- The program without Verificarlo. -/
def plain (P : Machine τ O V Out) (native : O → V) : Nat → τ → End Out
  | 0, _ => .cut
  | n + 1, s =>
    match P s with
    | .inl o => .out o
    | .inr (_, o, k) => plain P native n (k (native o))

/-- The return addresses of its operations. -/
def visited (P : Machine τ O V Out) (native : O → V) : Nat → τ → List Nat
  | 0, _ => []
  | n + 1, s =>
    match P s with
    | .inl _ => []
    | .inr (r, o, k) => r :: visited P native n (k (native o))

theorem exec_plain (P : Machine τ O V Out) (native : O → V) (back : O → G → V × G) (f : Nat → Bool) (hf : ∀ r, f r = false) (n : Nat)
    (s : τ) (g : G) : exec P native back f n s g = plain P native n s := by
  induction n generalizing s g with
  | zero => rfl
  | succ n ih =>
    rw [exec, plain]
    cases P s with
    | inl o => rfl
    | inr x =>
      dsimp only
      rw [if_neg (by rw [hf]; decide), ih]

theorem exec_include (P : Machine τ O V Out) (native : O → V) (back : O → G → V × G) (d : DD) (A : Finset Nat)
    (h1 : d.excludeSet = false) (h2 : d.includeSet = true) (h3 : AddrSet d.must A) (n : Nat) (s : τ) (g : G) :
    execDD P native back n d s g = (exec P native back (fun r => decide (r ∈ A)) n s g, d) := by
  induction n generalizing s g with
  | zero => rfl
  | succ n ih =>
    rw [execDD, exec]
    cases P s with
    | inl o => rfl
    | inr x =>
      obtain ⟨r, o, k⟩ := x
      have hs : d.step r = some (!decide (r ∈ A), d) := by
        simp only [DD.step, h1, h2, addrSet_have _ _ h3 r, Bool.false_eq_true, if_false, if_true, Option.bind_some, Option.map_some]
      dsimp only
      rw [hs]
      by_cases hr : r ∈ A
      · simp only [hr, decide_true, Bool.not_true, if_true]
        exact ih _ _
      · simp only [hr, decide_false, Bool.not_false, Bool.false_eq_true, if_false]
        exact ih _ _

theorem exec_generate (P : Machine τ O V Out) (native : O → V) (ieee : O → G → V × G) (hi : ∀ o g, (ieee o g).1 = native o) (n : Nat)
    (d d' : DD) (dec : List Bool) (s : τ) (g : G) (h1 : d.excludeSet = false) (h2 : d.includeSet = false)
    (h : d.run (visited P native n s) = some (dec, d')) : execDD P native ieee n d s g = (plain P native n s, d') := by
  induction n generalizing d d' dec s g with
  | zero =>
    rw [visited, DD.run] at h
    rw [execDD, plain]
    cases h
    rfl
  | succ n ih =>
    rw [visited] at h
    rw [execDD, plain]
    cases hp : P s with
    | inl o =>
      rw [hp] at h
      cases h
      rfl
    | inr x =>
      obtain ⟨r, o, k⟩ := x
      rw [hp] at h
      dsimp only at h ⊢
      rw [DD.run] at h
      obtain ⟨⟨b, d1⟩, e1, h⟩ := Option.bind_eq_some_iff.1 h
      obtain ⟨⟨dec', d2⟩, e2, h⟩ := Option.map_eq_some_iff.1 h
      have hb : b = false ∧ d1.excludeSet = false ∧ d1.includeSet = false := by
        simp only [DD.step, h1, h2, Bool.false_eq_true, if_false, Option.bind_some] at e1
        split at e1
        · obtain ⟨m, -, e1⟩ := Option.map_eq_some_iff.1 e1
          cases e1
          exact ⟨rfl, rfl, rfl⟩
        · cases e1
          exact ⟨rfl, h1, h2⟩
      obtain ⟨rfl, h3, h4⟩ := hb
      cases h
      rw [e1]
      dsimp only
      rw [hi]
      exact ih _ _ _ _ _ h3 h4 e2

/-! ## Files -/

theorem lines_line (b : Str) (hb : '\n' ∉ b) (t : Str) : lines (b ++ '\n' :: t) = (b ++ ['\n']) :: lines t := by
  induction b with
  | nil => simp [lines]
  | cons c b ih =>
    rw [List.cons_append, lines, if_neg (fun h => hb (by simp [h])), ih (fun h => hb (by simp [h]))]
    rfl

theorem lines_flatten (L : List Str) (h : ∀ l ∈ L, IsLine l) : lines L.flatten = L := by
  induction L with
  | nil => rfl
  | cons l L ih =>
    obtain ⟨b, hb, rfl⟩ := h l (by simp)
    rw [List.flatten_cons, List.append_assoc, List.singleton_append, lines_line b hb, ih fun x hx => h x (by simp [hx])]

/-- The line of the operation called at `a`. -/
def Tool.line (t : Tool τ O V Out G K) (a : Nat) : Str := genLine t.width t.desc a

/-- The calls of the program without Verificarlo, five bytes before the return addresses. -/
def Tool.sites (t : Tool τ O V Out G K) : List Nat := ((visited t.prog t.native t.stop t.init).map (· - 5)).dedup

/-- Does sample `i` of the configuration `S` pass: the program with the backends doing the operations called from `S`, and the
machine doing the others? -/
def Tool.verdict (t : Tool τ O V Out G K) (ref : Out) (S : List Nat) (i : Nat) : Bool :=
  t.compare ref (exec t.prog t.native t.back (fun r => decide (∃ a ∈ S, r = a + 5)) t.stop t.init (t.seed (t.name (S.map t.line)) i))

/-- The calls are in the address space, `addr2line` writes their addresses in full and one short line each, their number is within
the limits of the tables, and no two configurations have the same md5. -/
structure Tool.Fits (t : Tool τ O V Out G K) : Prop where
  addr : ∀ r ∈ visited t.prog t.native t.stop t.init, 5 ≤ r ∧ r < 2 ^ 64
  line : ∀ a ∈ t.sites, (1 ≤ t.width a ∧ a < 16 ^ t.width a) ∧ ShortDesc t.width t.desc a
  card : (visited t.prog t.native t.stop t.init).toFinset.card ≤ 2 ^ 28
  md5 : ∀ S S' : List Nat, S ⊆ t.sites → S' ⊆ t.sites → S.Nodup → S'.Nodup →
    t.name (S.map t.line) = t.name (S'.map t.line) → hashed (S.map t.line) = hashed (S'.map t.line)
  ieee : ∀ o g, (t.ieee o g).1 = t.native o

theorem mem_sites {t : Tool τ O V Out G K} (h : t.Fits) (a : Nat) : a ∈ t.sites ↔ a + 5 ∈ visited t.prog t.native t.stop t.init := by
  rw [Tool.sites, List.mem_dedup, List.mem_map]
  constructor
  · rintro ⟨r, hr, rfl⟩
    rwa [Nat.sub_add_cancel (h.addr r hr).1]
  · intro hr
    exact ⟨_, hr, Nat.add_sub_cancel a 5⟩

theorem line_isLine {t : Tool τ O V Out G K} (h : t.Fits) {a : Nat} (ha : a ∈ t.sites) : IsLine (t.line a) := by
  refine ⟨'0' :: 'x' :: (hexPad (t.width a) a ++ (':' :: ' ' :: t.desc a)), ?_, by simp [Tool.line, genLine]⟩
  intro hc
  simp only [List.mem_cons, List.mem_append] at hc
  rcases hc with hc | hc | hc | hc | hc | hc
  · exact absurd hc (by decide)
  · exact absurd hc (by decide)
  · exact hexPad_nonl _ _ _ hc rfl
  · exact absurd hc (by decide)
  · exact absurd hc (by decide)
  · exact (h.line a ha).2.1 _ hc rfl

theorem site_lt {t : Tool τ O V Out G K} (h : t.Fits) {a : Nat} (ha : a ∈ t.sites) : a + 5 < 2 ^ 64 :=
  (h.addr _ ((mem_sites h a).1 ha)).2

theorem line_inj {t : Tool τ O V Out G K} (h : t.Fits) {a b : Nat} (ha : a ∈ t.sites) (hb : b ∈ t.sites) (hab : t.line a = t.line b) :
    a = b := by
  have h1 := scan_line t.width t.desc a (by have := site_lt h ha; omega) (h.line a ha).1
  have h2 := scan_line t.width t.desc b (by have := site_lt h hb; omega) (h.line b hb).1
  rw [show genLine t.width t.desc a = genLine t.width t.desc b from hab, h2] at h1
  exact (Option.some.inj h1).symm

theorem lines_perm {t : Tool τ O V Out G K} (h : t.Fits) {S S' : List Nat} (hS : S ⊆ t.sites) (hS' : S' ⊆ t.sites)
    (hp : (S.map t.line).Perm (S'.map t.line)) (a : Nat) : a ∈ S ↔ a ∈ S' := by
  have key : ∀ {S S' : List Nat}, S ⊆ t.sites → S' ⊆ t.sites → (S.map t.line).Perm (S'.map t.line) → a ∈ S → a ∈ S' := by
    intro S S' hS hS' hp ha
    obtain ⟨b, hb, e⟩ := List.mem_map.1 (hp.mem_iff.1 (List.mem_map_of_mem ha))
    rw [← line_inj h (hS' hb) (hS ha) e]
    exact hb
  exact ⟨key hS hS' hp, key hS' hS hp.symm⟩

theorem nodup_lines {t : Tool τ O V Out G K} (h : t.Fits) {S : List Nat} (hS : S ⊆ t.sites) (hd : S.Nodup) : (S.map t.line).Nodup :=
  List.Nodup.map_on (fun _ ha _ hb e => line_inj h (hS ha) (hS hb) e) hd

theorem length_sites {t : Tool τ O V Out G K} (h : t.Fits) {S : List Nat} (hS : S ⊆ t.sites) (hd : S.Nodup) : S.length ≤ 2 ^ 28 := by
  have h3 : (S.map (· + 5)).Nodup := hd.map (fun a b h => by simpa using h)
  have h4 : (S.map (· + 5)).toFinset ⊆ (visited t.prog t.native t.stop t.init).toFinset := by
    intro x hx
    rw [List.mem_toFinset, List.mem_map] at hx
    obtain ⟨a, ha, rfl⟩ := hx
    exact List.mem_toFinset.2 ((mem_sites h a).1 (hS ha))
  have h5 := Finset.card_le_card h4
  rw [List.toFinset_card_of_nodup h3, List.length_map] at h5
  exact le_trans h5 h.card

/-- A sample run with the lines of some calls. -/
theorem sampleRun_eq {t : Tool τ O V Out G K} (h : t.Fits) (S : List Nat) (hS : S ⊆ t.sites) (hd : S.Nodup) (g : G) :
    t.sampleRun (S.map t.line).flatten g = exec t.prog t.native t.back (fun r => decide (∃ a ∈ S, r = a + 5)) t.stop t.init g := by
  have hread : readAddrs (S.map t.line).flatten = .ok S := by
    unfold readAddrs
    rw [← List.flatMap_def]
    refine read_lines t.width t.desc S (fun a ha => ⟨by have := site_lt h (hS ha); omega, h.line a (hS ha)⟩) _ ?_
    have : ∀ l : List Nat, l.length ≤ (l.flatMap t.line).length := by
      intro l
      induction l with
      | nil => simp
      | cons a l ih => rw [List.flatMap_cons, List.length_append, List.length_cons]; simp only [Tool.line, genLine, List.length_cons]; omega
    have := this S
    omega
  obtain ⟨m, e1, e2⟩ := filterMap_spec (some (some (S.map t.line).flatten)) S hread (fun a ha => site_lt h (hS ha)) (length_sites h hS hd)
  have hi : ddInit ⟨none, some (some (S.map t.line).flatten), false⟩ = .ok (some ⟨false, true, false, m, Hash.Map.create⟩) := by
    unfold ddInit
    rw [if_neg (by simp), e1]
    rfl
  unfold Tool.sampleRun process
  rw [hi]
  dsimp only
  rw [exec_include _ _ _ _ _ rfl rfl e2]
  show exec _ _ _ _ _ _ _ = _
  congr 1
  funext r
  rw [decide_eq_decide, List.mem_toFinset, List.mem_map]
  exact ⟨fun ⟨a, h1, h2⟩ => ⟨a, h1, h2.symm⟩, fun ⟨a, h1, h2⟩ => ⟨a, h1, h2.symm⟩⟩

/-- The reference run. -/
theorem reference_eq {t : Tool τ O V Out G K} (h : t.Fits) {ref : Out} (hp : plain t.prog t.native t.stop t.init = .out ref) :
    ∃ as : List Nat, as.Perm t.sites ∧ t.reference = .ok (ref, (as.map t.line).flatten) := by
  obtain ⟨d, dec, d', as, h1, h2, h3, h4, h5, -⟩ := C32_generate_partial none [] rfl (by simp) (by simp)
    (visited t.prog t.native t.stop t.init) h.addr h.card t.width t.desc (fun r hr => h.line _ (by
      rw [mem_sites h, Nat.sub_add_cancel (h.addr r hr).1]; exact hr))
  have hd : d.excludeSet = false ∧ d.includeSet = false := by
    unfold ddInit at h1
    rw [if_neg (by simp)] at h1
    cases h1
    exact ⟨rfl, rfl⟩
  refine ⟨as, ?_, ?_⟩
  · refine (List.perm_ext_iff_of_nodup h4 (List.nodup_dedup _)).2 fun a => ?_
    have := h5 (a + 5)
    rw [show (a ∈ ((visited t.prog t.native t.stop t.init).map (· - 5)).dedup ↔ _) from mem_sites h a]
    rw [show a + 5 ∈ visited t.prog t.native t.stop t.init ↔ ∃ b ∈ as, a + 5 = b + 5 by rw [this]; simp]
    exact ⟨fun ha => ⟨a, ha, rfl⟩, fun ⟨b, hb, e⟩ => by rwa [show a = b by omega]⟩
  · unfold Tool.reference process
    rw [h1]
    dsimp only
    rw [exec_generate t.prog t.native t.ieee h.ieee t.stop d d' dec t.init t.refSeed hd.1 hd.2 h2, hp]
    dsimp only
    rw [h3]
    simp [genFile, overwrite, List.flatMap_def, show t.line = genLine t.width t.desc from rfl]

theorem delta0_eq {t : Tool τ O V Out G K} (h : t.Fits) {as : List Nat} (ha : as ⊆ t.sites) :
    delta0 [(as.map t.line).flatten] = .ok (as.map t.line) := by
  have hl : ∀ l ∈ as.map t.line, IsLine l := by
    intro l hl
    obtain ⟨a, h1, rfl⟩ := List.mem_map.1 hl
    exact line_isLine h (ha h1)
  simp only [delta0, List.foldl_nil, lines_flatten _ hl]

theorem verdict_perm {t : Tool τ O V Out G K} (h : t.Fits) {S S' : List Nat} (hS : S ⊆ t.sites) (hp : S.Perm S') (ref : Out) (i : Nat) :
    t.verdict ref S i = t.verdict ref S' i := by
  have hS' : S' ⊆ t.sites := fun a ha => hS (hp.mem_iff.2 ha)
  have hn : t.name (S.map t.line) = t.name (S'.map t.line) := by
    unfold Tool.name
    rw [(C44_names _ _ (fun l hl => ?_) (fun l hl => ?_)).2 (hp.map _)]
    · obtain ⟨a, h1, rfl⟩ := List.mem_map.1 hl
      exact line_isLine h (hS h1)
    · obtain ⟨a, h1, rfl⟩ := List.mem_map.1 hl
      exact line_isLine h (hS' h1)
  unfold Tool.verdict
  rw [hn]
  congr 2
  funext r
  rw [decide_eq_decide]
  exact ⟨fun ⟨a, h1, h2⟩ => ⟨a, hp.mem_iff.1 h1, h2⟩, fun ⟨a, h1, h2⟩ => ⟨a, hp.mem_iff.2 h1, h2⟩⟩

theorem sample_eq [DecidableEq K] {t : Tool τ O V Out G K} (h : t.Fits) (ref : Out) {as S : List Nat} (hp : as.Perm t.sites) (hs : S.Sublist as) (i : Nat) :
    t.sample ref (as.map t.line) (t.name (S.map t.line)) i = t.verdict ref S i := by
  have has : as ⊆ t.sites := hp.subset
  have hnd : as.Nodup := hp.nodup_iff.2 (List.nodup_dedup _)
  unfold Tool.sample
  cases hf : (as.map t.line).sublists.find? fun c => decide (t.name c = t.name (S.map t.line)) with
  | none =>
    have := List.find?_eq_none.1 hf (S.map t.line) (List.mem_sublists.2 (hs.map _))
    simp at this
  | some c =>
    dsimp only
    have h1 := List.find?_some hf
    rw [decide_eq_true_eq] at h1
    obtain ⟨S', hs', rfl⟩ := List.sublist_map_iff.1 (List.mem_sublists.1 (List.mem_of_find?_eq_some hf))
    have hS : S ⊆ t.sites := fun a ha => has (hs.subset ha)
    have hS' : S' ⊆ t.sites := fun a ha => has (hs'.subset ha)
    have h2 := h.md5 S' S hS' hS (hs'.nodup hnd) (hs.nodup hnd) h1
    have hl : ∀ {S : List Nat}, S ⊆ t.sites → ∀ l ∈ S.map t.line, IsLine l := by
      intro S hS l hl
      obtain ⟨a, h1, rfl⟩ := List.mem_map.1 hl
      exact line_isLine h (hS h1)
    have h3 := (C44_names _ _ (hl hS') (hl hS)).1 h2
    rw [sampleRun_eq h S' hS' (hs'.nodup hnd)]
    unfold Tool.verdict
    congr 2
    funext r
    rw [decide_eq_decide]
    have := lines_perm h hS' hS h3
    exact ⟨fun ⟨a, h1, h2⟩ => ⟨a, (this a).1 h1, h2⟩, fun ⟨a, h1, h2⟩ => ⟨a, (this a).2 h1, h2⟩⟩

/-! ## The sets found -/

theorem decide_iff {p : Prop} (d : Decidable p) : @decide p d = true ↔ p := decide_eq_true_iff

/-- The calls named by some of the lines. -/
theorem calls_of_sublist {t : Tool τ O V Out G K} {as : List Nat} {c : List Str} (h : c.Sublist (as.map t.line)) :
    ∃ S : List Nat, S.Sublist as ∧ c = S.map t.line := by
  obtain ⟨S, h1, h2⟩ := List.sublist_map_iff.1 h
  exact ⟨S, h1, h2⟩

theorem calls_of_sublists {t : Tool τ O V Out G K} {as : List Nat} (cs : List (List Str)) (h : ∀ c ∈ cs, c.Sublist (as.map t.line)) :
    ∃ Ss : List (List Nat), (∀ S ∈ Ss, S.Sublist as) ∧ cs = Ss.map (·.map t.line) := by
  induction cs with
  | nil => exact ⟨[], by simp, rfl⟩
  | cons c cs ih =>
    obtain ⟨S, h1, rfl⟩ := calls_of_sublist (h c (by simp))
    obtain ⟨Ss, h2, rfl⟩ := ih fun c hc => h c (by simp [hc])
    exact ⟨S :: Ss, by simpa using ⟨h1, h2⟩, rfl⟩

theorem filter_lines (t : Tool τ O V Out G K) (S : List Nat) (p : Str → Bool) :
    (S.map t.line).filter p = (S.filter fun a => p (t.line a)).map t.line := by
  rw [List.filter_map]
  rfl

section
variable [DecidableEq K]

theorem main_eq {t : Tool τ O V Out G K} (h : t.Fits) {ref : Out} (hp : plain t.prog t.native t.stop t.init = .out ref)
    (hc : t.compare ref (.out ref) = true) (nbRUN : Nat) (ord : List Entry → List Entry) (hord : ∀ l, (ord l).Perm l) (unsafe_ : Bool) :
    ∃ as : List Nat, as.Perm t.sites ∧ Setup (t.env nbRUN ord unsafe_ ref (as.map t.line)) nbRUN ∧
      ∀ fuel s sTab dTab g d, t.main nbRUN ord unsafe_ fuel s sTab dTab g d =
        runSearch (t.env nbRUN ord unsafe_ ref (as.map t.line)) fuel s sTab dTab g (as.map t.line) d := by
  obtain ⟨as, h1, h2⟩ := reference_eq h hp
  refine ⟨as, h1, ⟨⟨rfl, hord⟩, le_refl _, fun i _ => ?_⟩, fun fuel s sTab dTab g d => ?_⟩
  · have := sample_eq h ref h1 (List.nil_sublist as) i
    show t.sample ref (as.map t.line) (t.name (([] : List Nat).map t.line)) i = true
    rw [this]
    unfold Tool.verdict
    rw [exec_plain _ _ _ _ (fun r => by simp), hp, hc]
  · unfold Tool.main
    rw [h2, Res.ok_bind]
    dsimp only
    rw [delta0_eq h h1.subset, Res.ok_bind, if_pos hc]

/-- The verdicts of the tool on the lines of some calls are those of the program. -/
theorem env_sample {t : Tool τ O V Out G K} (h : t.Fits) (ref : Out) (nbRUN : Nat) (ord : List Entry → List Entry) (unsafe_ : Bool)
    {as S : List Nat} (hp : as.Perm t.sites) (hs : S.Sublist as) (i : Nat) :
    (t.env nbRUN ord unsafe_ ref (as.map t.line)).sample ((t.env nbRUN ord unsafe_ ref (as.map t.line)).name (S.map t.line)) i =
      t.verdict ref S i := sample_eq h ref hp hs i

/-- A set of calls the tool may blame: a sample fails when the backends do just these operations, and all pass when one of them is
left to the machine. -/
structure Tool.Culprit (t : Tool τ O V Out G K) (ref : Out) (nbRUN : Nat) (S : List Nat) : Prop where
  ne : S ≠ []
  sub : S ⊆ t.sites
  nodup : S.Nodup
  fails : ∃ i < nbRUN, t.verdict ref S i = false
  minimal : ∀ a ∈ S, ∀ i < nbRUN, t.verdict ref (S.filter fun b => decide (b ≠ a)) i = true

theorem culprit_of {t : Tool τ O V Out G K} (h : t.Fits) (ref : Out) (nbRUN : Nat) (ord : List Entry → List Entry) (unsafe_ : Bool)
    {as S : List Nat} (hp : as.Perm t.sites) (hs : S.Sublist as)
    (hm : MinS (t.env nbRUN ord unsafe_ ref (as.map t.line)) nbRUN nbRUN (as.map t.line) (S.map t.line)) : t.Culprit ref nbRUN S := by
  have hS : S ⊆ t.sites := fun a ha => hp.subset (hs.subset ha)
  refine ⟨fun e => hm.ne (by rw [e]; rfl), hS, hs.nodup (hp.nodup_iff.2 (List.nodup_dedup _)), ?_, fun a ha i hi => ?_⟩
  · obtain ⟨i, hi, e⟩ := hm.fails
    rw [env_sample h ref nbRUN ord unsafe_ hp hs] at e
    exact ⟨i, hi, e⟩
  · have := hm.min (t.line a) (List.mem_map_of_mem ha) i hi
    rw [filter_lines, env_sample h ref nbRUN ord unsafe_ hp (List.filter_sublist.trans hs)] at this
    rw [← this]
    congr 1
    refine List.filter_congr fun b hb => ?_
    rw [decide_eq_decide]
    exact ⟨fun e e' => e (line_inj h (hS hb) (hS ha) e'), fun e e' => e (by rw [e'])⟩

/-- Whatever search finds minimal, disjoint sets and leaves one that passes. -/
theorem found_of {t : Tool τ O V Out G K} (h : t.Fits) (ref : Out) (nbRUN : Nat) (ord : List Entry → List Entry) (unsafe_ : Bool)
    {as : List Nat} (hp : as.Perm t.sites) (found : List (List Str))
    (h1 : ∀ c ∈ found, MinS (t.env nbRUN ord unsafe_ ref (as.map t.line)) nbRUN nbRUN (as.map t.line) c)
    (h2 : found.Pairwise List.Disjoint)
    (left : Str → Bool) (hl : ∀ x, left x = true ↔ ∀ c ∈ found, x ∉ c)
    (h3 : ∀ i < nbRUN, (t.env nbRUN ord unsafe_ ref (as.map t.line)).sample ((t.env nbRUN ord unsafe_ ref (as.map t.line)).name
      ((as.map t.line).filter left)) i = true) :
    ∃ sets : List (List Nat), found = sets.map (·.map t.line) ∧ (∀ S ∈ sets, t.Culprit ref nbRUN S) ∧ sets.Pairwise List.Disjoint ∧
      ∀ i < nbRUN, t.verdict ref (t.sites.filter fun a => decide (∀ S ∈ sets, a ∉ S)) i = true := by
  obtain ⟨sets, h4, rfl⟩ := calls_of_sublists found fun c hc => (h1 c hc).sub
  have hsub : ∀ S ∈ sets, S ⊆ t.sites := fun S hS a ha => hp.subset ((h4 S hS).subset ha)
  refine ⟨sets, rfl, fun S hS => culprit_of h ref nbRUN ord unsafe_ hp (h4 S hS) (h1 _ (List.mem_map_of_mem hS)), ?_, fun i hi => ?_⟩
  · rw [List.pairwise_map] at h2
    exact h2.imp fun hd a ha hb => hd (List.mem_map_of_mem ha) (List.mem_map_of_mem hb)
  · have := h3 i hi
    rw [filter_lines, env_sample h ref nbRUN ord unsafe_ hp List.filter_sublist] at this
    rw [← this]
    have e : (as.filter fun a => left (t.line a)) = as.filter fun a => decide (∀ S ∈ sets, a ∉ S) := by
      refine List.filter_congr fun a ha => ?_
      rw [Bool.eq_iff_iff, hl, decide_eq_true_eq]
      constructor
      · intro hx S hS haS
        exact hx _ (List.mem_map_of_mem hS) (List.mem_map_of_mem haS)
      · intro hx c hc hac
        obtain ⟨S, hS, rfl⟩ := List.mem_map.1 hc
        obtain ⟨b, hb, e⟩ := List.mem_map.1 hac
        rw [line_inj h (hsub S hS hb) (hp.subset ha) e] at hb
        exact hx S hS hb
    rw [e]
    exact (verdict_perm h (fun a ha => hp.subset (List.mem_filter.1 ha).1) (hp.filter _) ref i).symm

/-- C101: the searches `rddmin`, `srddmin` and `drddmin`, from the reference run to the sets found, when the run in which the
backends do all operations of the reference run fails.  Partial: see the theorems below for what this leaves out. -/
theorem C101_search_partial {t : Tool τ O V Out G K} (h : t.Fits) {ref : Out} (hp : plain t.prog t.native t.stop t.init = .out ref)
    (hc : t.compare ref (.out ref) = true) (nbRUN : Nat) (hn : 1 ≤ nbRUN) (ord : List Entry → List Entry) (hord : ∀ l, (ord l).Perm l)
    (unsafe_ : Bool) (s : Search) (hs : s ≠ .ddmax) (p q : String) (hpw : p ∈ ["exp", "all", "single"]) (hqw : q ∈ dichoWords)
    (g : Int) (hg : g ≠ 1) (hall : ∃ i < nbRUN, t.verdict ref t.sites i = false) :
    ∃ sTab dTab, rddMinTab p nbRUN = .ok (some sTab) ∧ splitTab q nbRUN = .ok (some dTab) ∧
      ∀ fuel, enough t.sites.length ≤ fuel →
        ∃ (sets : List (List Nat)) (d : Disk K), t.main nbRUN ord unsafe_ fuel s sTab dTab g (fun _ => []) = .ok (sets.map (·.map t.line), d) ∧
          sets ≠ [] ∧ (∀ S ∈ sets, t.Culprit ref nbRUN S) ∧ sets.Pairwise List.Disjoint ∧
          ∀ i < nbRUN, t.verdict ref (t.sites.filter fun a => decide (∀ S ∈ sets, a ∉ S)) i = true := by
  obtain ⟨sTab, e1, t1⟩ := C45_rddmin_tables p hpw nbRUN hn
  obtain ⟨dTab, e2, t2⟩ := C45_dicho_tables q hqw nbRUN hn
  refine ⟨sTab, dTab, e1, e2, fun fuel hf => ?_⟩
  obtain ⟨as, hperm, hset, hm⟩ := main_eq h hp hc nbRUN ord hord unsafe_
  have hnd : (as.map t.line).Nodup := nodup_lines h hperm.subset (hperm.nodup_iff.2 (List.nodup_dedup _))
  have hfuel : enough (as.map t.line).length ≤ fuel := by rw [List.length_map, hperm.length_eq]; exact hf
  have hall' : ∃ i < nbRUN, (t.env nbRUN ord unsafe_ ref (as.map t.line)).sample
      ((t.env nbRUN ord unsafe_ ref (as.map t.line)).name (as.map t.line)) i = false := by
    obtain ⟨i, hi, e⟩ := hall
    refine ⟨i, hi, ?_⟩
    rw [env_sample h ref nbRUN ord unsafe_ hperm (List.Sublist.refl as), verdict_perm h hperm.subset hperm]
    exact e
  have hgood : Good (t.env nbRUN ord unsafe_ ref (as.map t.line)) nbRUN (fun _ => []) := fun k i b hb => by simp at hb
  have key : ∃ found d, (match s with
      | .rddmin => rddmin (t.env nbRUN ord unsafe_ ref (as.map t.line)) fuel (as.map t.line) nbRUN (fun _ => [])
      | .srddmin => srddmin (t.env nbRUN ord unsafe_ ref (as.map t.line)) fuel (as.map t.line) sTab (fun _ => [])
      | .drddmin => drddmin (t.env nbRUN ord unsafe_ ref (as.map t.line)) fuel (as.map t.line) sTab dTab g (fun _ => [])
      | .ddmax => .exit) = .ok (found, d) ∧ Good (t.env nbRUN ord unsafe_ ref (as.map t.line)) nbRUN d ∧
      (∀ c ∈ found, MinS (t.env nbRUN ord unsafe_ ref (as.map t.line)) nbRUN nbRUN (as.map t.line) c) ∧ found.Pairwise List.Disjoint ∧
      ∃ left : Str → Bool, (∀ x, left x = true ↔ ∀ c ∈ found, x ∉ c) ∧
      ∀ i < nbRUN, (t.env nbRUN ord unsafe_ ref (as.map t.line)).sample ((t.env nbRUN ord unsafe_ ref (as.map t.line)).name
        ((as.map t.line).filter left)) i = true := by
    cases s with
    | rddmin =>
      obtain ⟨f, d, a1, a2, a3, a4, a5⟩ := C42_rddmin hset fuel _ hnd hfuel _ hgood hall'
      refine ⟨f, d, a1, a2, a3, a4, _, ?_, a5⟩
      intro x
      exact decide_iff _
    | srddmin =>
      obtain ⟨f, d, a1, a2, a3, a4, a5⟩ := C42_srddmin hset t1 fuel _ hnd hfuel _ hgood hall'
      refine ⟨f, d, a1, a2, a3, a4, _, ?_, a5⟩
      intro x
      exact decide_iff _
    | drddmin =>
      obtain ⟨f, d, a1, a2, a3, a4, a5⟩ := C42_drddmin_partial hset t1 t2 hg fuel _ hnd hfuel _ hgood hall'
      refine ⟨f, d, a1, a2, a3, a4, _, ?_, a5⟩
      intro x
      exact decide_iff _
    | ddmax => exact absurd rfl hs
  obtain ⟨found, d, k1, k2, k3, k4, left, hl, k5⟩ := key
  obtain ⟨sets, rfl, s1, s2, s3⟩ := found_of h ref nbRUN ord unsafe_ hperm found k3 k4 left hl k5
  obtain ⟨v, d', q1, -, -⟩ := hset.test (le_refl _) (listminus (as.map t.line) (sets.map (·.map t.line)).flatten) k2
  have q2 : test (t.env nbRUN ord unsafe_ ref (as.map t.line)) (listminus (as.map t.line) (sets.map (·.map t.line)).flatten)
      (t.env nbRUN ord unsafe_ ref (as.map t.line)).nbRUN d = .ok (v, d') := q1
  refine ⟨sets, d', ?_, ?_, s1, s2, s3⟩
  · rw [hm]
    cases s with
    | rddmin =>
      have k1' : rddmin (t.env nbRUN ord unsafe_ ref (as.map t.line)) fuel (as.map t.line) (t.env nbRUN ord unsafe_ ref (as.map t.line)).nbRUN (fun _ => []) = _ := k1
      simp only [runSearch, k1', Res.bind]
      rw [q2]
    | srddmin =>
      have k1' : srddmin (t.env nbRUN ord unsafe_ ref (as.map t.line)) fuel (as.map t.line) sTab (fun _ => []) = _ := k1
      simp only [runSearch, k1', Res.bind]
      rw [q2]
    | drddmin =>
      have k1' : drddmin (t.env nbRUN ord unsafe_ ref (as.map t.line)) fuel (as.map t.line) sTab dTab g (fun _ => []) = _ := k1
      simp only [runSearch, k1', Res.bind]
      rw [q2]
    | ddmax => exact absurd rfl hs
  · rintro rfl
    obtain ⟨i, hi, e⟩ := hall
    have := s3 i hi
    simp only [List.not_mem_nil, false_imp_iff, implies_true, decide_true, List.filter_true] at this
    rw [this] at e
    cases e

/-- C101: the search `ddmax` keeps operations with which all samples pass; adding any other of the reference run fails. -/
theorem C101_ddmax_partial {t : Tool τ O V Out G K} (h : t.Fits) {ref : Out} (hp : plain t.prog t.native t.stop t.init = .out ref)
    (hc : t.compare ref (.out ref) = true) (nbRUN : Nat) (ord : List Entry → List Entry) (hord : ∀ l, (ord l).Perm l) (unsafe_ : Bool)
    (sTab dTab : List Nat) (g : Int) (hall : ∃ i < nbRUN, t.verdict ref t.sites i = false) (fuel : Nat)
    (hf : enough t.sites.length ≤ fuel) :
    ∃ (keep : List Nat) (d : Disk K), t.main nbRUN ord unsafe_ fuel .ddmax sTab dTab g (fun _ => []) = .ok ([keep.map t.line], d) ∧
      keep ⊆ t.sites ∧ keep.Nodup ∧ (∀ i < nbRUN, t.verdict ref keep i = true) ∧
      ∀ a ∈ t.sites, a ∉ keep → ∃ i < nbRUN, t.verdict ref (a :: keep) i = false := by
  obtain ⟨as, hperm, hset, hm⟩ := main_eq h hp hc nbRUN ord hord unsafe_
  have hsn : as.Nodup := hperm.nodup_iff.2 (List.nodup_dedup _)
  have hnd : (as.map t.line).Nodup := nodup_lines h hperm.subset hsn
  have hfuel : enough (as.map t.line).length ≤ fuel := by rw [List.length_map, hperm.length_eq]; exact hf
  obtain ⟨c, d, k1, k2, k3, k4⟩ := C41_ddmax hset.seq nbRUN (le_refl _) fuel (as.map t.line) hnd hfuel (fun _ => [])
    (fun k i b hb => by simp at hb) hset.empty (by
      obtain ⟨i, hi, e⟩ := hall
      refine ⟨i, hi, ?_⟩
      rw [env_sample h ref nbRUN ord unsafe_ hperm (List.Sublist.refl as), verdict_perm h hperm.subset hperm]
      exact e)
  obtain ⟨keep, s1, rfl⟩ := calls_of_sublist k2
  have hkeep : keep ⊆ t.sites := fun a ha => hperm.subset (s1.subset ha)
  refine ⟨keep, d, ?_, hkeep, s1.nodup hsn, fun i hi => ?_, fun a ha hk => ?_⟩
  · rw [hm]
    simp only [runSearch, k1, Res.bind]
  · rw [← k3 i hi, env_sample h ref nbRUN ord unsafe_ hperm s1]
  · obtain ⟨i, hi, e⟩ := k4 (t.line a) (List.mem_map_of_mem (hperm.mem_iff.2 ha)) (fun hx => by
      obtain ⟨b, hb, e⟩ := List.mem_map.1 hx
      rw [line_inj h (hkeep hb) ha e] at hb
      exact hk hb)
    refine ⟨i, hi, ?_⟩
    rw [filter_lines, env_sample h ref nbRUN ord unsafe_ hperm List.filter_sublist] at e
    rw [← e]
    refine verdict_perm h (fun x hx => ?_) ((List.perm_ext_iff_of_nodup ?_ (hsn.filter _)).2 fun x => ?_) ref i
    · rcases List.mem_cons.1 hx with rfl | hx
      · exact ha
      · exact hkeep hx
    · exact List.nodup_cons.2 ⟨hk, s1.nodup hsn⟩
    · rw [List.mem_filter, decide_iff, List.mem_cons]
      constructor
      · rintro (rfl | hx)
        · exact ⟨hperm.mem_iff.2 ha, .inr rfl⟩
        · exact ⟨s1.subset hx, .inl (List.mem_map_of_mem hx)⟩
      · rintro ⟨hx, hx' | hx'⟩
        · obtain ⟨b, hb, e⟩ := List.mem_map.1 hx'
          rw [line_inj h (hkeep hb) (hperm.subset hx) e] at hb
          exact .inr hb
        · exact .inl (line_inj h (hperm.subset hx) ha hx')
end

/-- C101: the two files of a configuration of calls: one names the calls of the configuration, the other the rest. -/
theorem C101_files {t : Tool τ O V Out G K} (h : t.Fits) {as S : List Nat} (has : as ⊆ t.sites) (hnd : as.Nodup) (hs : S.Sublist as) :
    ∃ inc exc, genFiles (as.map t.line) (S.map t.line) = .ok (inc, exc) ∧ lines inc = S.map t.line ∧
      lines exc = (as.filter fun a => decide (a ∉ S)).map t.line := by
  have hl : ∀ {L : List Nat}, L ⊆ t.sites → ∀ l ∈ L.map t.line, IsLine l := by
    intro L hL l hl
    obtain ⟨a, h1, rfl⟩ := List.mem_map.1 hl
    exact line_isLine h (hL h1)
  have key : ∀ (S as : List Nat), as ⊆ t.sites → as.Nodup → S.Nodup → S ⊆ as →
      removeAll (as.map t.line) (S.map t.line) = .ok ((as.filter fun a => decide (a ∉ S)).map t.line) := by
    intro S
    induction S with
    | nil => intro as _ _ _ _; simp [removeAll]
    | cons x S ih =>
      intro as has hnd hS hsub
      have hx : x ∈ as := hsub (by simp)
      have e1 : (as.map t.line).erase (t.line x) = (as.filter fun a => decide (a ≠ x)).map t.line := by
        rw [(nodup_lines h has hnd).erase_eq_filter, filter_lines]
        congr 1
        refine List.filter_congr fun a ha => ?_
        by_cases e : a = x
        · simp [e]
        · simp only [e, ne_eq, not_false_eq_true, decide_true, bne_iff_ne]
          exact fun e' => e (line_inj h (has ha) (has hx) e')
      rw [List.map_cons, removeAll, if_pos (List.mem_map_of_mem hx), e1,
        ih _ (fun a ha => has (List.mem_filter.1 ha).1) (hnd.filter _) (List.nodup_cons.1 hS).2, List.filter_filter]
      · congr 2
        refine List.filter_congr fun a _ => ?_
        rw [Bool.eq_iff_iff]
        simp only [Bool.and_eq_true, decide_eq_true_eq, List.mem_cons, not_or]
        exact and_comm
      · intro a ha
        rw [List.mem_filter, decide_eq_true_eq]
        refine ⟨hsub (by simp [ha]), ?_⟩
        rintro rfl
        exact (List.nodup_cons.1 hS).1 ha
  refine ⟨_, _, by rw [genFiles, key S as has hnd (hs.nodup hnd) hs.subset, Res.ok_bind], lines_flatten _ (hl fun a ha => has (hs.subset ha)),
    lines_flatten _ (hl fun a ha => has (List.mem_filter.1 ha).1)⟩

/-! ## A program -/

/-- Three operations, whose results are the output; the backends add their state. -/
def three : Tool (List Nat) Nat Nat (List Nat) Nat Str where
  prog s := if s.length = 3 then .inl s else .inr (4096 + 16 * s.length + 5, s.length, fun v => v :: s)
  init := []
  native o := o
  back o g := (o + g, g)
  ieee o g := (o, g)
  stop := 10
  width _ := 6
  desc _ := "main x.c:7".toList
  compare _ e := match e with
    | .out [c, _, a] => decide (a < 10 ∨ c < 10)
    | _ => false
  md5 := id
  refSeed := 0
  seed _ i := 9 + i

theorem three_visited : visited three.prog three.native three.stop three.init = [4101, 4117, 4133] := by decide +kernel

theorem three_sites : three.sites = [4096, 4112, 4128] := by decide +kernel

theorem three_fits : three.Fits where
  addr := by rw [three_visited]; decide
  line := by
    rw [three_sites]
    intro a ha
    refine ⟨?_, ?_, ?_⟩
    · simp only [List.mem_cons, List.not_mem_nil, or_false] at ha
      show 1 ≤ 6 ∧ a < 16 ^ 6
      omega
    · show ∀ c ∈ "main x.c:7".toList, c ≠ '\n'
      decide
    · simp only [List.mem_cons, List.not_mem_nil, or_false] at ha
      rcases ha with rfl | rfl | rfl <;> decide +kernel
  card := by rw [three_visited]; decide
  md5 := fun _ _ _ _ _ _ h => h
  ieee := fun _ _ => rfl

/-- The sets found. -/
def sets {α : Type} (r : Res (List (List α) × Disk K)) : Res (List (List α)) := r.bind fun x => .ok x.1

/-- The first and the last operation are blamed together, with two samples of which only the second fails; `ddmax` keeps two others. -/
example : sets (three.main 2 id false 25 .srddmin [1, 2] [] 2 (fun _ => [])) = .ok [[4096, 4128].map three.line] ∧
    sets (three.main 2 id false 25 .rddmin [] [] 2 (fun _ => [])) = .ok [[4096, 4128].map three.line] := by decide +kernel

example : sets (three.main 2 id false 25 .ddmax [] [] 2 (fun _ => [])) = .ok [[4096, 4112].map three.line] := by decide +kernel

/-- What `C101_search_partial` says of it. -/
example (fuel : Nat) (hf : 25 ≤ fuel) : ∃ sTab dTab, rddMinTab "exp" 2 = .ok (some sTab) ∧ splitTab "exp" 2 = .ok (some dTab) ∧
    ∃ (S : List (List Nat)) (d : Disk Str), three.main 2 id false fuel .drddmin sTab dTab 2 (fun _ => []) = .ok (S.map (·.map three.line), d) ∧
      S ≠ [] ∧ (∀ s ∈ S, three.Culprit [2, 1, 0] 2 s) ∧ S.Pairwise List.Disjoint ∧
      ∀ i < 2, three.verdict [2, 1, 0] (three.sites.filter fun a => decide (∀ s ∈ S, a ∉ s)) i = true := by
  obtain ⟨sTab, dTab, h1, h2, h⟩ := C101_search_partial three_fits (ref := [2, 1, 0]) (by decide +kernel) (by decide +kernel) 2 (by omega) id
    (fun _ => .rfl) false .drddmin (by decide) "exp" "exp" (by decide) (by decide) 2 (by decide)
    ⟨1, by omega, by rw [three_sites]; decide +kernel⟩
  exact ⟨sTab, dTab, h1, h2, h fuel (by rw [three_sites]; exact hf)⟩

example : genFiles ([4096, 4112, 4128].map three.line) ([4096, 4128].map three.line) =
    .ok (three.line 4096 ++ three.line 4128, three.line 4112) := by decide +kernel

/-! ## What the tool does not do -/

/-- C101: two processes of the reference run write the same file.  A second text that is no shorter replaces the first, so that the
operations only the first process does are never tried; of a longer first text, the end of a line is left, which names an address
that is not in the program. -/
theorem C101_processes_wrong : (∀ a b : Str, a.length ≤ b.length → genFile [a, b] = b) ∧
    let a := genLine (fun _ => 6) (fun _ => "main x1.c:7".toList) 4096
    let b := genLine (fun _ => 6) (fun _ => "f y.c:7".toList) 8192
    delta0 [genFile [a, b]] = .ok [b, "c:7\n".toList] ∧ readAddrs (genFile [a, b]) = .ok [8192, 12] := by
  refine ⟨fun a b h => ?_, by decide +kernel⟩
  show b ++ (a ++ ([] : Str).drop a.length).drop b.length = b
  rw [List.drop_nil, List.append_nil, List.drop_eq_nil_of_le h, List.append_nil]

/-- One operation, and a second one when its result is not zero; the output is the last result. -/
def branch : Tool (Nat × Option Nat) Nat Nat Nat Nat Str where
  prog s := match s with
    | (0, _) => .inr (4101, 0, fun v => (1, some v))
    | (1, some 0) => .inl 0
    | (1, _) => .inr (4117, 0, fun v => (2, some v))
    | (_, v) => .inl (v.getD 0)
  init := (0, none)
  native o := o
  back o g := (o + g, g)
  ieee o g := (o, g)
  stop := 10
  width _ := 6
  desc _ := "main x.c:7".toList
  compare r e := decide (e = .out r)
  md5 := id
  refSeed := 0
  seed _ i := 1 + i

/-- C101: operations done only when others are perturbed are not in the reference run, and are never perturbed: every run with the
backends fails, and the tool says that all samples pass. -/
theorem C101_unvisited_wrong :
    (∀ g, 0 < g → branch.compare 0 (exec branch.prog branch.native branch.back (fun _ => true) branch.stop branch.init g) = false) ∧
    plain branch.prog branch.native branch.stop branch.init = .out 0 ∧ branch.sites = [4096] ∧
    (∀ i, branch.verdict 0 branch.sites i = true) ∧
    sets (branch.main 5 id false 100 .rddmin [] [] 2 (fun _ => [])) = .exit := by
  have hs : branch.sites = [4096] := by decide +kernel
  refine ⟨fun g hg => ?_, by decide +kernel, hs, fun i => ?_, by decide +kernel⟩
  · obtain ⟨n, rfl⟩ : ∃ n, g = n + 1 := ⟨g - 1, by omega⟩
    simp [exec, branch]
  · rw [hs]
    simp [Tool.verdict, exec, branch]

/-- The program `three` after a change that makes its last operation harmless. -/
def repaired : Tool (List Nat) Nat Nat (List Nat) Nat Str := { three with compare := fun _ _ => true }

/-- C101: the results of an earlier run of the tool are taken for those of the program as it is now. -/
theorem C101_cache_wrong : ∃ d, three.main 2 id false 25 .rddmin [] [] 2 (fun _ => []) = .ok ([[4096, 4128].map three.line], d) ∧
    (∀ S i, repaired.verdict [2, 1, 0] S i = true) ∧
    sets (repaired.main 2 id false 25 .rddmin [] [] 2 d) = .ok [[4096, 4128].map three.line] ∧
    sets (repaired.main 2 id false 25 .rddmin [] [] 2 (fun _ => [])) = .exit := by
  refine ⟨(match three.main 2 id false 25 .rddmin [] [] 2 (fun _ => []) with | .ok x => x.2 | _ => fun _ => []), ?_, fun _ _ => rfl, ?_, ?_⟩
  · have h : sets (three.main 2 id false 25 .rddmin [] [] 2 (fun _ => [])) = .ok [[4096, 4128].map three.line] := by decide +kernel
    generalize three.main 2 id false 25 .rddmin [] [] 2 (fun _ => []) = r at h
    cases r with
    | ok x => simp only [sets, Res.bind, Res.ok.injEq] at h ⊢; rw [← h]
    | exit => cases h
    | fuel => cases h
  · decide +kernel
  · decide +kernel

/-- One fused multiply-add in double precision, `2^-104`; the backends change its last bit. -/
def fused : Tool (Option Fp.Bits) Unit Fp.Bits Fp.Bits Unit Str where
  prog s := match s with
    | none => .inr (4101, (), some)
    | some v => .inl v
  init := none
  native _ := Fp.fadd Fp.b64 (Fp.fmul Fp.b64 ⟨false, 1023, 1⟩ ⟨false, 1023, 1⟩) ⟨true, 1023, 2⟩
  back _ g := (⟨false, 919, 1⟩, g)
  ieee _ g := (Fp.ffma Fp.b64 ⟨false, 1023, 1⟩ ⟨false, 1023, 1⟩ ⟨true, 1023, 2⟩, g)
  stop := 10
  width _ := 6
  desc _ := "main x.c:7".toList
  compare r e := decide (e = .out r)
  md5 := id
  refSeed := ()
  seed _ _ := ()

/-- C101: a fused multiply-add that the filters leave to the machine is done with two roundings (main.c.in:720), which is not what
the reference run computes: a program with one such operation, whose result the backends change, fails without any perturbed
operation, and all searches stop with an error. -/
theorem C101_fma_wrong :
    exec fused.prog fused.native fused.ieee (fun _ => true) fused.stop fused.init () = .out ⟨false, 919, 0⟩ ∧
    plain fused.prog fused.native fused.stop fused.init = .out ⟨false, 0, 0⟩ ∧
    fused.verdict ⟨false, 919, 0⟩ [4096] 0 = false ∧ fused.verdict ⟨false, 919, 0⟩ [] 0 = false ∧
    ∀ s ∈ [Search.rddmin, .srddmin, .drddmin, .ddmax], sets (fused.main 2 id false 25 s [1, 2] [1, 2] 2 (fun _ => [])) = .exit := by
  decide +kernel

end Verif.Ddtool
