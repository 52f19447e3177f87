import Verif.Ddtool.Stat

/-!
# Property C118: the time and the runs that a search reports

The time printed has the usual ranges and is at most the time elapsed, less than two seconds below it: it may be a second less than the
number of whole seconds.  The number of runs counts the runs of each set found again for every link to it; and file systems cut times, so a
run at the beginning may be missed.
-/

namespace Verif.Ddtool.Stat

/-- **C118** (partial: a time that is up to two seconds too short.)  What is printed is a time in days, hours, minutes and seconds that is
the elapsed time or less than two seconds below it. -/
theorem C118_elapsed_partial (start now : ℚ) (h : start ≤ now) :
    let p := parts (duration start now)
    0 ≤ p.d ∧ (0 ≤ p.h ∧ p.h < 24) ∧ (0 ≤ p.m ∧ p.m < 60) ∧ (0 ≤ p.s ∧ p.s < 60) ∧
      ((86400 * p.d + 3600 * p.h + 60 * p.m + p.s : ℤ) : ℚ) ≤ now - start ∧
      now - start < ((86400 * p.d + 3600 * p.h + 60 * p.m + p.s : ℤ) : ℚ) + 2 := by
  have hn : (0 : ℤ) ≤ duration start now ∧ ((duration start now : ℤ) : ℚ) ≤ now - start ∧ now - start < ((duration start now : ℤ) : ℚ) + 2 := by
    have f1 := Int.floor_le now
    have f2 := Int.lt_floor_add_one now
    unfold duration trunc
    split_ifs with hc
    · have g1 := Int.floor_le ((⌊now⌋ : ℚ) - start)
      have g2 := Int.lt_floor_add_one ((⌊now⌋ : ℚ) - start)
      exact ⟨Int.floor_nonneg.2 hc, by linarith, by linarith⟩
    · have e : ⌈(⌊now⌋ : ℚ) - start⌉ = 0 := by
        rw [Int.ceil_eq_iff]
        push_cast
        exact ⟨by linarith, by linarith⟩
      rw [e]
      push_cast
      exact ⟨trivial, by linarith, by linarith⟩
  obtain ⟨h0, h1, h2⟩ := hn
  generalize duration start now = n at h0 h1 h2
  have key : 0 ≤ (parts n).d ∧ (0 ≤ (parts n).h ∧ (parts n).h < 24) ∧ (0 ≤ (parts n).m ∧ (parts n).m < 60) ∧
      (0 ≤ (parts n).s ∧ (parts n).s < 60) ∧ 86400 * (parts n).d + 3600 * (parts n).h + 60 * (parts n).m + (parts n).s = n := by
    unfold parts
    simp only [Int.fdiv_eq_ediv_of_nonneg _ (show (0 : ℤ) ≤ 60 by decide), Int.fdiv_eq_ediv_of_nonneg _ (show (0 : ℤ) ≤ 24 by decide),
      Int.fmod_eq_emod_of_nonneg _ (show (0 : ℤ) ≤ 60 by decide), Int.fmod_eq_emod_of_nonneg _ (show (0 : ℤ) ≤ 24 by decide)]
    omega
  obtain ⟨k1, k2, k3, k4, k5⟩ := key
  refine ⟨k1, k2, k3, k4, ?_, ?_⟩ <;> rw [k5]
  · exact h1
  · exact h2

/-- **C118** is false: more than a second has elapsed and none is printed. -/
theorem C118_second_wrong : ∃ start now : ℚ, start + 1 < now ∧ parts (duration start now) = ⟨0, 0, 0, 0⟩ :=
  ⟨109 / 10, 1195 / 100, by norm_num, by decide +kernel⟩

/-- The files found are those of the runs and, again, those of the sets that links lead to. -/
theorem C118_counted (start : ℚ) (d : Dir) :
    (nbRun start d).1 = ((d.sets.flatMap Prod.snd).filter fun t => start < t).length +
        (d.links.map fun l => ((d.runs l.2).filter fun t => start < t).length).sum ∧
      (nbRun start d).2 = (d.sets.map fun e => e.2.length).sum + (d.links.map fun l => (d.runs l.2).length).sum := by
  unfold nbRun Dir.glob
  refine ⟨?_, ?_⟩
  · show (List.filter _ _).length = _
    rw [List.filter_append, List.length_append]
    congr 1
    induction d.links with
    | nil => rfl
    | cons a l ih => simp only [List.flatMap_cons, List.filter_append, List.length_append, List.map_cons, List.sum_cons, ih]
  · simp only [List.length_append, List.length_flatMap]

/-- **C118** (partial: without links to the sets found, and with exact times of files.)  The first number counts the runs of the search,
when their files are written after its start and those of earlier searches before; the second counts both. -/
theorem C118_runs_partial (start : ℚ) (d : Dir) (old new : List ℚ) (ho : ∀ t ∈ old, t ≤ start) (hn : ∀ t ∈ new, start < t)
    (hd : (d.sets.flatMap Prod.snd).Perm (old ++ new)) (hl : d.links = []) : nbRun start d = (new.length, old.length + new.length) := by
  have e : d.glob = d.sets.flatMap Prod.snd := by
    unfold Dir.glob
    rw [hl, List.flatMap_nil, List.append_nil]
  unfold nbRun
  rw [e, (hd.filter _).length_eq, hd.length_eq, List.filter_append, List.filter_eq_nil_iff.2 (by
    intro t ht
    simpa using ho t ht), List.filter_eq_self.2 (by
    intro t ht
    simpa using hn t ht), List.nil_append, List.length_append]

/-- **C118** is false of every search that finds a set: a link to a set with runs since the start makes the first number larger than that
of the runs since the start. -/
theorem C118_link_wrong (start : ℚ) (d : Dir) (set name : String) (t : ℚ) (ht : t ∈ d.runs set) (hs : start < t) :
    ((d.sets.flatMap Prod.snd).filter fun t => start < t).length < (nbRun start (d.link set name)).1 := by
  rw [(C118_counted start (d.link set name)).1]
  have hp : 0 < ((d.runs set).filter fun t => start < t).length := by
    rw [List.length_pos_iff_exists_mem]
    exact ⟨t, List.mem_filter.2 ⟨ht, by simpa using hs⟩⟩
  have hr : (d.link set name).runs set = d.runs set := rfl
  have e : (d.link set name).sets = d.sets := rfl
  rw [e]
  show _ < _ + (List.map _ ((name, set) :: _)).sum
  rw [List.map_cons, List.sum_cons, hr]
  omega

/-- **C118** is false of file systems that cut times: a run of the first tick is not counted. -/
theorem C118_tick_wrong : ∃ start written tick : ℚ, start < written ∧ 0 < tick ∧
    (nbRun start ⟨[("0cc175b9", [⌊written / tick⌋ * tick])], []⟩).1 = 0 :=
  ⟨1001 / 1000, 1002 / 1000, 4 / 1000, by norm_num, by norm_num, by decide +kernel⟩

example : parts (duration (1 / 2) 100000) = ⟨1, 3, 46, 39⟩ := by decide +kernel

example : nbRun 10 ⟨[("a", [3, 12]), ("b", [11])], []⟩ = (2, 3) :=
  C118_runs_partial 10 _ [3] [12, 11] (by decide) (by decide) (by decide) rfl

/-- Three runs were made and five are reported. -/
example : nbRun 10 (Dir.link ⟨[("a", [3, 12, 13]), ("b", [11])], []⟩ "a" "ddmin0") = (5, 7) := by decide +kernel

end Verif.Ddtool.Stat
