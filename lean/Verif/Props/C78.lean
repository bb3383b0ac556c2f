import Verif.Startup.Model
import Verif.Json.Number
import Verif.Log.MultiLemmas

/-!
# C78: Which files a server reads and writes, and what a restart with other settings does
-/
namespace Verif.Props.C78
open Verif.Startup
open Verif.Json (Bytes digits digits_all digits_head digits_big digits_small)

/-! ## Decimal numbers -/

theorem digits_ne_nil (n : Nat) : digits n ≠ [] := by
  obtain ⟨d, ds, h, -⟩ := digits_head n
  simp [h]

theorem digits_range (n : Nat) : ∀ b ∈ digits n, 48 ≤ b ∧ b ≤ 57 := by
  intro b hb
  have := digits_all n b hb
  simpa [Verif.Json.isDigit] using this

theorem digits_inj : ∀ {m n : Nat}, digits m = digits n → m = n := by
  intro m
  induction m using Nat.strongRecOn with
  | _ m ih =>
    intro n h
    rcases Nat.lt_or_ge m 10 with hm | hm <;> rcases Nat.lt_or_ge n 10 with hn | hn
    · rw [digits_small hm, digits_small hn] at h
      simpa using h
    · rw [digits_small hm, digits_big hn] at h
      have := congrArg List.length h
      have h0 := List.length_pos_iff.mpr (digits_ne_nil (n / 10))
      rw [List.length_append, List.length_singleton, List.length_singleton] at this; omega
    · rw [digits_big hm, digits_small hn] at h
      have := congrArg List.length h
      have h0 := List.length_pos_iff.mpr (digits_ne_nil (m / 10))
      rw [List.length_append, List.length_singleton, List.length_singleton] at this; omega
    · rw [digits_big hm, digits_big hn] at h
      obtain ⟨h1, h2⟩ := List.append_inj' h rfl
      have := ih (m / 10) (by omega) h1
      simp at h2
      omega

theorem digits_length : ∀ (k n : Nat), 0 < k → n < 10 ^ k → (digits n).length ≤ k := by
  intro k
  induction k with
  | zero => intro n h; omega
  | succ k ih =>
    intro n _ hn
    rcases Nat.lt_or_ge n 10 with h | h
    · rw [digits_small h]; simp
    · rw [digits_big h]
      rcases Nat.eq_zero_or_pos k with hk | hk
      · subst hk; simp at hn; omega
      · have := ih (n / 10) hk (by rw [Nat.pow_succ] at hn; omega)
        simp; omega

/-- The part after the last dash is unique. -/
theorem last_dash {xs ys ds es : Bytes} (hd : ∀ b ∈ ds, b ≠ 45) (he : ∀ b ∈ es, b ≠ 45)
    (h : xs ++ 45 :: ds = ys ++ 45 :: es) : xs = ys ∧ ds = es := by
  induction xs generalizing ys with
  | nil =>
    cases ys with
    | nil => simpa using h
    | cons y ys =>
      simp only [List.nil_append, List.cons_append, List.cons.injEq] at h
      exact absurd rfl (hd 45 (h.2 ▸ by simp))
  | cons x xs ih =>
    cases ys with
    | nil =>
      simp only [List.nil_append, List.cons_append, List.cons.injEq] at h
      exact absurd rfl (he 45 (h.2 ▸ by simp))
    | cons y ys =>
      simp only [List.cons_append, List.cons.injEq] at h
      obtain ⟨h1, h2⟩ := ih h.2
      exact ⟨by rw [h.1, h1], h2⟩

theorem no_dash (n : Nat) : ∀ b ∈ digits n, b ≠ 45 := by
  intro b hb
  have := digits_range n b hb
  omega

/-! ## Names -/

/-- The name of a log tells its directory and its number. -/
theorem log_names {d e : Bytes} {i j : Nat} : logName d i = logName e j ↔ d = e ∧ i = j := by
  constructor
  · intro h
    unfold logName at h
    have h' : (d ++ [47, 107, 118, 100, 45, 108, 111, 103]) ++ 45 :: digits i =
        (e ++ [47, 107, 118, 100, 45, 108, 111, 103]) ++ 45 :: digits j := by simpa using h
    obtain ⟨h1, h2⟩ := last_dash (no_dash i) (no_dash j) h'
    exact ⟨List.append_cancel_right h1, digits_inj h2⟩
  · rintro ⟨rfl, rfl⟩; rfl

/-- The name of a part of a checkpoint tells its directory, generation and number. -/
theorem ckp_names {d e : Bytes} {g k i j : Nat} :
    ckpName d g i = ckpName e k j ↔ d = e ∧ g = k ∧ i = j := by
  constructor
  · intro h
    unfold ckpName at h
    have h' : (d ++ [47, 107, 118, 100, 45, 99, 107, 112, 45] ++ digits g) ++ 45 :: digits i =
        (e ++ [47, 107, 118, 100, 45, 99, 107, 112, 45] ++ digits k) ++ 45 :: digits j := by simpa using h
    obtain ⟨h1, h2⟩ := last_dash (no_dash i) (no_dash j) h'
    have h1' : (d ++ [47, 107, 118, 100, 45, 99, 107, 112]) ++ 45 :: digits g =
        (e ++ [47, 107, 118, 100, 45, 99, 107, 112]) ++ 45 :: digits k := by simpa using h1
    obtain ⟨h3, h4⟩ := last_dash (no_dash g) (no_dash k) h1'
    exact ⟨List.append_cancel_right h3, digits_inj h4, digits_inj h2⟩
  · rintro ⟨rfl, rfl, rfl⟩; rfl

/-- A log is never a part of a checkpoint, and neither is the file that names the checkpoint,
whatever the directories are. -/
theorem kinds (d e : Bytes) (g i j : Nat) :
    logName d i ≠ ckpName e g j ∧ logName d i ≠ genName e ∧ ckpName d g i ≠ genName e := by
  refine ⟨?_, ?_, ?_⟩
  · intro h
    have h' : (d ++ [47, 107, 118, 100, 45, 108, 111, 103]) ++ 45 :: digits i =
        (e ++ [47, 107, 118, 100, 45, 99, 107, 112, 45] ++ digits g) ++ 45 :: digits j := by
      simpa [logName, ckpName] using h
    obtain ⟨h1, -⟩ := last_dash (no_dash i) (no_dash j) h'
    have h2 := congrArg List.getLast? h1
    have hm := List.getLast_mem (digits_ne_nil g)
    have := digits_range g _ hm
    rw [List.getLast?_append, List.getLast?_append_of_ne_nil _ (digits_ne_nil g),
      List.getLast?_eq_some_getLast (digits_ne_nil g)] at h2
    simp at h2
    omega
  · intro h
    have h' : (d ++ [47, 107, 118, 100, 45, 108, 111, 103]) ++ 45 :: digits i =
        (e ++ [47, 107, 118, 100, 45, 99, 107, 112]) ++ 45 :: [103, 101, 110] := by
      simpa [logName, genName] using h
    obtain ⟨-, h2⟩ := last_dash (no_dash i) (by decide) h'
    have := digits_range i 103 (by rw [h2]; simp)
    omega
  · intro h
    have h' : (d ++ [47, 107, 118, 100, 45, 99, 107, 112, 45] ++ digits g) ++ 45 :: digits i =
        (e ++ [47, 107, 118, 100, 45, 99, 107, 112]) ++ 45 :: [103, 101, 110] := by
      simpa [ckpName, genName] using h
    obtain ⟨-, h2⟩ := last_dash (no_dash i) (by decide) h'
    have := digits_range i 103 (by rw [h2]; simp)
    omega

/-- The name of a log fits in the room that is made for it, `strlen(logdir) + 24` bytes
(/repo/mtd.cc:1248), with the null byte. -/
theorem log_name_fits (d : Bytes) {i : Nat} (h : i < 2 ^ 31) : (logName d i).length + 1 ≤ d.length + 24 := by
  have := digits_length 10 i (by omega) (by omega)
  simp [logName]; omega

example : (logName [46] (2 ^ 31 - 1)).length = 20 := by decide +kernel

/-- The name of a part of a checkpoint fits in the array `path[256]` (/repo/mtd.cc:1332, 1541, 1583)
if the name of the directory has at most 216 bytes, ... -/
theorem ckp_name_fits {d : Bytes} {g i : Nat} (hd : d.length ≤ 216) (hg : g < 2 ^ 63) (hi : i < 2 ^ 31) :
    (ckpName d g i).length + 1 ≤ 256 := by
  have h1 := digits_length 10 i (by omega) (by omega)
  have h2 := digits_length 19 g (by omega) (by omega)
  simp [ckpName]; omega

/-- ... and with 244 bytes or more it is written past the end, for every generation and number. -/
theorem ckp_name_overflows {d : Bytes} (g i : Nat) (hd : 244 ≤ d.length) : 256 < (ckpName d g i).length + 1 := by
  have h1 := List.length_pos_iff.mpr (digits_ne_nil g)
  have h2 := List.length_pos_iff.mpr (digits_ne_nil i)
  simp [ckpName]; omega

example : (ckpName (List.replicate 243 97) 1 0).length + 1 = 256 := by decide +kernel
example : (ckpName (List.replicate 216 97) (2 ^ 63 - 1) (2 ^ 31 - 1)).length + 1 = 256 := by decide +kernel

/-! ## Lists of directories -/

theorem tokensFrom_field {d : Bytes} (h : ∀ b ∈ d, b ≠ 44) (cur s : Bytes) :
    tokensFrom cur (d ++ s) = tokensFrom (cur ++ d) s := by
  induction d generalizing cur with
  | nil => simp
  | cons b d ih =>
    have hb : b ≠ 44 := h b (by simp)
    rw [List.cons_append, tokensFrom, if_neg hb, ih (fun x hx => h x (by simp [hx]))]
    simp

/-- Names joined by commas are the list of names, if they have no commas and are not empty. -/
theorem tokens_join (ds : List Bytes) (h : ∀ d ∈ ds, d ≠ [] ∧ ∀ b ∈ d, b ≠ 44) :
    tokens ([44].intercalate ds) = ds := by
  unfold tokens
  induction ds with
  | nil => simp [List.intercalate, tokensFrom]
  | cons d ds ih =>
    obtain ⟨h1, h2⟩ := h d (by simp)
    have ih := ih (fun x hx => h x (by simp [hx]))
    cases ds with
    | nil =>
      have e : [44].intercalate [d] = d ++ [] := by simp [List.intercalate]
      rw [e, tokensFrom_field h2]
      simp [tokensFrom, h1]
    | cons d' ds =>
      have e : [44].intercalate (d :: d' :: ds) = d ++ 44 :: [44].intercalate (d' :: ds) := by
        simp [List.intercalate, List.intersperse]
      rw [e, tokensFrom_field h2, tokensFrom, if_pos rfl, if_neg (by simpa using h1), ih]
      simp

/-- Every text gives names without commas that are not empty. -/
theorem tokens_good (s : Bytes) : ∀ d ∈ tokens s, d ≠ [] ∧ ∀ b ∈ d, b ≠ 44 := by
  suffices H : ∀ (s cur : Bytes), (∀ b ∈ cur, b ≠ 44) → ∀ d ∈ tokensFrom cur s, d ≠ [] ∧ ∀ b ∈ d, b ≠ 44 from
    H s [] (by simp)
  intro s
  induction s with
  | nil =>
    intro cur hc d hd
    rw [tokensFrom] at hd
    split at hd
    · simp at hd
    · next hn => simp at hd; subst hd; exact ⟨hn, hc⟩
  | cons b s ih =>
    intro cur hc d hd
    rw [tokensFrom] at hd
    split at hd
    · split at hd
      · exact ih [] (by simp) d hd
      · next hn =>
        rcases List.mem_cons.mp hd with rfl | hd
        · exact ⟨hn, hc⟩
        · exact ih [] (by simp) d hd
    · next hb =>
      exact ih _ (by intro x hx; rcases List.mem_append.mp hx with hx | hx
                     · exact hc x hx
                     · simp at hx; subst hx; exact hb) d hd

/-- Nothing but commas is lost: the names one after the other are the text without its commas. -/
theorem tokens_flatten (s : Bytes) : (tokens s).flatten = s.filter (· ≠ 44) := by
  suffices H : ∀ s cur, (tokensFrom cur s).flatten = cur ++ s.filter (· ≠ 44) from by
    simpa [tokens] using H s []
  intro s
  induction s with
  | nil => intro cur; rw [tokensFrom]; split <;> simp_all
  | cons b s ih =>
    intro cur
    rw [tokensFrom]
    split
    · next h => subst h; split <;> simp_all
    · next h => rw [ih]; simp [h]

/-- There is always a directory, so `i % dirs.size()` is defined and within the list. -/
theorem directories_some (options : List Bytes) (i : Nat) :
    0 < (directories options).length ∧ dirAt (directories options) i ∈ directories options := by
  have h : 0 < (directories options).length := by
    unfold directories
    simp only
    split
    · simp
    · next h => exact List.length_pos_iff.mpr h
  refine ⟨h, ?_⟩
  unfold dirAt
  have hi := Nat.mod_lt i h
  rw [List.getD_eq_getElem?_getD, List.getElem?_eq_getElem hi]
  exact List.getElem_mem hi

/-- Without an option, or with nothing but commas, the directory is `.`. -/
theorem directories_default {options : List Bytes} :
    (∀ o ∈ options, ∀ b ∈ o, b = 44) → directories options = [[46]] := by
  intro h
  have e : options.flatMap tokens = [] := by
    rw [List.flatMap_eq_nil_iff]
    intro o ho
    have hf := tokens_flatten o
    have : o.filter (· ≠ 44) = [] := by
      rw [List.filter_eq_nil_iff]; intro b hb; simp [h o ho b hb]
    rw [this] at hf
    rcases ht : tokens o with _ | ⟨d, ds⟩
    · rfl
    · have := (tokens_good o d (by simp [ht])).1
      rw [ht] at hf
      simp at hf
      exact absurd hf.1 this
  simp [directories, e]

example : directories [[97, 44, 44, 98], [99, 44]] = [[97], [98], [99]] := by decide +kernel
example : directories [[44, 44]] = [[46]] := by decide +kernel

/-! ## Logs of a restarted server -/

theorem mem_logFiles {s : Settings} {f : Bytes} :
    f ∈ logFiles s ↔ ∃ i < s.threads, logName (dirAt s.logdirs i) i = f := by
  simp [logFiles]

/-- The logs of one server are different files. -/
theorem logs_distinct (s : Settings) : (logFiles s).Nodup := by
  unfold logFiles
  refine List.pairwise_map.mpr (List.nodup_range.imp ?_)
  intro i j hij h
  exact hij (log_names.mp h).2

/-- A restarted server reads all logs that the server before wrote if and only if it has at least as
many threads and the directory of every log is the same. -/
theorem logs_read_iff (s t : Settings) :
    (∀ f ∈ logFiles s, f ∈ logFiles t) ↔
      s.threads ≤ t.threads ∧ ∀ i < s.threads, dirAt s.logdirs i = dirAt t.logdirs i := by
  constructor
  · intro h
    have key : ∀ i < s.threads, i < t.threads ∧ dirAt s.logdirs i = dirAt t.logdirs i := by
      intro i hi
      obtain ⟨j, hj, e⟩ := mem_logFiles.mp (h _ (mem_logFiles.mpr ⟨i, hi, rfl⟩))
      obtain ⟨e1, e2⟩ := log_names.mp e
      subst e2
      exact ⟨hj, e1.symm⟩
    refine ⟨?_, fun i hi => (key i hi).2⟩
    rcases Nat.eq_zero_or_pos s.threads with h0 | h0
    · omega
    · have := (key (s.threads - 1) (by omega)).1
      omega
  · rintro ⟨h1, h2⟩ f hf
    obtain ⟨i, hi, rfl⟩ := mem_logFiles.mp hf
    exact mem_logFiles.mpr ⟨i, by omega, by rw [h2 i hi]⟩

/-- With fewer threads the logs from there on are not read. -/
theorem logs_lost {s t : Settings} {i : Nat} (h : t.threads ≤ i) (hi : i < s.threads) :
    logName (dirAt s.logdirs i) i ∈ logFiles s ∧ logName (dirAt s.logdirs i) i ∉ logFiles t := by
  refine ⟨mem_logFiles.mpr ⟨i, hi, rfl⟩, fun hm => ?_⟩
  obtain ⟨j, hj, e⟩ := mem_logFiles.mp hm
  have := (log_names.mp e).2
  omega

example : logFiles ⟨3, [[97], [98]], []⟩ =
    [logName [97] 0, logName [98] 1, logName [97] 2] := by decide +kernel

/-- One directory more, at the end, is enough for logs to be missed. -/
example : ¬ ∀ f ∈ logFiles ⟨3, [[97], [98]], []⟩, f ∈ logFiles ⟨3, [[97], [98], [99]], []⟩ := by decide +kernel

/-- Nothing after the first epoch at or beyond the limit is replayed. -/
theorem replay_stops {min max e : Nat} (h : max ≤ e) (b : List Verif.Log.Rec) :
    ∀ (a : List Verif.Log.Rec) (e0 : Nat) (began : Bool),
      Verif.Log.replayLog min max e0 began (a ++ .epoch e :: b) =
      Verif.Log.replayLog min max e0 began (a ++ [.epoch e]) := by
  intro a
  induction a with
  | nil =>
    intro e0 began
    simp [Verif.Log.replayLog, Verif.Log.Rec.isEpoch, Verif.Log.Rec.epochAfter, h]
  | cons r a ih =>
    intro e0 began
    simp only [List.cons_append, Verif.Log.replayLog, ih]

/-- A log left from a run with more threads, that a later run with fewer threads did not see, is read
again when there are more threads again.  If it does not end quietly, its last epoch limits the replay
of all logs: what the run between logged from that epoch on is not replayed. -/
theorem old_log_cuts (c min : Nat) {logs : List (List Verif.Log.Rec)} {old : List Verif.Log.Rec}
    (hm : old ∈ logs) (hq : (Verif.Log.info old).quiescent = false) (hl : (Verif.Log.info old).last ≠ 0)
    {a b : List Verif.Log.Rec} {e : Nat} (he : (Verif.Log.info old).last ≤ e) :
    Verif.Log.replayLog min (Verif.Log.replayMax c logs) 0 false (a ++ .epoch e :: b) =
    Verif.Log.replayLog min (Verif.Log.replayMax c logs) 0 false (a ++ [.epoch e]) :=
  replay_stops (Nat.le_trans (Verif.Log.replayMax_le_last c logs hm hq hl) he) b a 0 false

/-- Log 0 of a run with two threads and a later one with one thread, and log 1 of the first: with both
the put of the later run is dropped, with log 0 alone it is replayed. -/
example :
    let log0 : List Verif.Log.Rec := [.epoch 1, .kv .put 2 [97] [1], .epoch 5, .kv .put 4 [98] [2], .epoch 9]
    let log1 : List Verif.Log.Rec := [.epoch 1, .kv .put 2 [99] [3], .epoch 2]
    Verif.Log.replayLog 0 (Verif.Log.replayMax 0 [log0, log1]) 0 false log0 = some [.kv .put 2 [97] [1]] ∧
    Verif.Log.replayLog 0 (Verif.Log.replayMax 0 [log0]) 0 false log0 =
      some [.kv .put 2 [97] [1], .kv .put 4 [98] [2]] := by decide +kernel

/-! ## Checkpoints of a restarted server -/

theorem foldl_parts {α : Type} (s : Settings) (gen : Nat) (parts : Nat → List α) (d : Disk α) (n : Nat) (f : Bytes) :
    ((List.range n).foldl
      (fun d i => fun f => if f = ckpFile s gen i then some (gen, parts i) else d f) d) f =
    if h : ∃ i < n, f = ckpFile s gen i then some (gen, parts (Classical.choose h)) else d f := by
  induction n with
  | zero => simp
  | succ n ih =>
    rw [List.range_succ, List.foldl_append, List.foldl_cons, List.foldl_nil]
    by_cases hf : f = ckpFile s gen n
    · have h : ∃ i < n + 1, f = ckpFile s gen i := ⟨n, by omega, hf⟩
      have hc := (Classical.choose_spec h).2
      have : Classical.choose h = n := (ckp_names.mp (hc.symm.trans hf)).2.2
      rw [if_pos hf, dif_pos h, this]
    · rw [if_neg hf, ih]
      by_cases h : ∃ i < n, f = ckpFile s gen i
      · have h' : ∃ i < n + 1, f = ckpFile s gen i := by
          obtain ⟨i, hi, e⟩ := h; exact ⟨i, by omega, e⟩
        have e1 := (Classical.choose_spec h).2
        have e2 := (Classical.choose_spec h').2
        rw [dif_pos h, dif_pos h', (ckp_names.mp (e1.symm.trans e2)).2.2]
      · have h' : ¬ ∃ i < n + 1, f = ckpFile s gen i := by
          rintro ⟨i, hi, e⟩
          rcases Nat.lt_succ_iff_lt_or_eq.mp hi with hi | hi
          · exact h ⟨i, hi, e⟩
          · subst hi; exact hf e
        rw [dif_neg h, dif_neg h']

theorem writeParts_at {α : Type} {s : Settings} {gen : Nat} {parts : Nat → List α} {d : Disk α} {i : Nat}
    (hi : i < s.threads) : writeParts s gen parts d (ckpFile s gen i) = some (gen, parts i) := by
  unfold writeParts
  rw [foldl_parts]
  have h : ∃ j < s.threads, ckpFile s gen i = ckpFile s gen j := ⟨i, hi, rfl⟩
  rw [dif_pos h, (ckp_names.mp (Classical.choose_spec h).2).2.2.symm]

theorem writeParts_other {α : Type} {s : Settings} {gen : Nat} {parts : Nat → List α} {d : Disk α} {f : Bytes}
    (hf : ∀ i < s.threads, f ≠ ckpFile s gen i) : writeParts s gen parts d f = d f := by
  unfold writeParts
  rw [foldl_parts, dif_neg]
  rintro ⟨i, hi, e⟩
  exact hf i hi e

theorem mapM_some {β γ : Type} {f : β → Option γ} {g : β → γ} {l : List β} (h : ∀ x ∈ l, f x = some (g x)) :
    l.mapM f = some (l.map g) := by
  induction l with
  | nil => rfl
  | cons x l ih =>
    rw [List.mapM_cons, h x (by simp), ih (fun y hy => h y (by simp [hy]))]
    rfl

theorem mapM_none {β γ : Type} {f : β → Option γ} {l : List β} {x : β} (hx : x ∈ l) (h : f x = none) :
    l.mapM f = none := by
  induction l with
  | nil => simp at hx
  | cons y l ih =>
    rw [List.mapM_cons]
    rcases List.mem_cons.mp hx with rfl | hx
    · rw [h]; rfl
    · rw [ih hx]; cases f y <;> rfl

/-- With as many threads or fewer, and the same directories for their parts, a restarted server takes
the first parts of the checkpoint and goes on: with as many threads these are all, with fewer the
others are lost without notice. -/
theorem restart_fewer {α : Type} {s t : Settings} (gen : Nat) (parts : Nat → List α) (d : Disk α)
    (hn : t.threads ≤ s.threads) (hd : ∀ i < t.threads, dirAt s.ckpdirs i = dirAt t.ckpdirs i) :
    readParts t gen (writeParts s gen parts d) = some ((List.range t.threads).map parts) := by
  unfold readParts
  apply mapM_some
  intro i hi
  have hi := List.mem_range.mp hi
  have e : ckpFile t gen i = ckpFile s gen i := by unfold ckpFile; rw [hd i hi]
  unfold readPart
  rw [e, writeParts_at (by omega)]
  simp

/-- With the same settings everything that was written is read. -/
theorem restart_same {α : Type} (s : Settings) (gen : Nat) (parts : Nat → List α) (d : Disk α) :
    readParts s gen (writeParts s gen parts d) = some ((List.range s.threads).map parts) :=
  restart_fewer gen parts d (Nat.le_refl _) (fun _ _ => rfl)

/-- With more threads a restarted server stops at an assertion, if there is a checkpoint and no older
file has the name of a part that was not written.  (Generations count from 1.) -/
theorem restart_more {α : Type} {s t : Settings} {gen : Nat} (parts : Nat → List α) {d : Disk α}
    (hn : s.threads < t.threads) (hg : gen ≠ 0) (hf : d (ckpFile t gen s.threads) = none) :
    readParts t gen (writeParts s gen parts d) = none := by
  unfold readParts
  refine mapM_none (List.mem_range.mpr hn) ?_
  unfold readPart
  rw [writeParts_other, hf]
  · simp [hg]
  · intro i hi e
    have := (ckp_names.mp e).2.2
    omega

/-- The same if the directory of a part is another. -/
theorem restart_moved {α : Type} {s t : Settings} {gen i : Nat} (parts : Nat → List α) {d : Disk α}
    (hi : i < t.threads) (hd : dirAt s.ckpdirs i ≠ dirAt t.ckpdirs i) (hg : gen ≠ 0)
    (hf : d (ckpFile t gen i) = none) : readParts t gen (writeParts s gen parts d) = none := by
  unfold readParts
  refine mapM_none (List.mem_range.mpr hi) ?_
  unfold readPart
  rw [writeParts_other, hf]
  · simp [hg]
  · intro j hj e
    obtain ⟨e1, -, e3⟩ := ckp_names.mp e
    subst e3
    exact hd e1.symm

example : readParts ⟨2, [], [[46]]⟩ 3 (writeParts ⟨4, [], [[46]]⟩ 3 (fun i => [i]) fun _ => none) =
    some [[0], [1]] := by decide +kernel
example : readParts ⟨5, [], [[46]]⟩ 3 (writeParts ⟨4, [], [[46]]⟩ 3 (fun i => [i]) fun _ => none) = none := by
  decide +kernel
example : readParts ⟨4, [], [[97], [98]]⟩ 3 (writeParts ⟨4, [], [[97]]⟩ 3 (fun i => [i]) fun _ => none) = none := by
  decide +kernel

/-- Without a checkpoint any settings will do. -/
theorem restart_none {α : Type} (t : Settings) {d : Disk α} (hd : ∀ i < t.threads, d (ckpFile t 0 i) = none) :
    readParts t 0 d = some ((List.range t.threads).map fun _ => []) := by
  unfold readParts
  apply mapM_some
  intro i hi
  unfold readPart
  rw [hd i (List.mem_range.mp hi)]
  simp

example : readParts ⟨3, [], [[46]]⟩ 0 (fun _ => (none : Option (Nat × List Nat))) = some [[], [], []] := by decide +kernel

/-! ## Deletion of the checkpoint before -/

/-- The deletion leaves the new checkpoint alone and all files that are not parts of the one
before. -/
theorem delete_keeps {α : Type} (s t : Settings) {gen k : Nat} (d : Disk α) (i : Nat) (hk : k ≠ gen - 1) :
    deleteOld s gen d (ckpFile t k i) = d (ckpFile t k i) := by
  unfold deleteOld
  rw [if_neg]
  intro h
  obtain ⟨j, -, e⟩ := List.mem_map.mp h
  exact hk (ckp_names.mp e).2.1.symm

theorem delete_new {α : Type} (s : Settings) {gen : Nat} (parts : Nat → List α) (d : Disk α) (hg : 0 < gen) :
    readParts s gen (deleteOld s gen (writeParts s gen parts d)) = some ((List.range s.threads).map parts) := by
  rw [← restart_same s gen parts d]
  unfold readParts readPart
  congr 1
  funext i
  rw [delete_keeps s s _ i (by omega)]

/-- It removes all parts of the one before that the same settings made; with fewer threads the others
stay for ever. -/
theorem delete_old {α : Type} (s t : Settings) (gen : Nat) (d : Disk α) (i : Nat) :
    (i < s.threads → deleteOld s gen d (ckpFile s (gen - 1) i) = none) ∧
    (s.threads ≤ i → deleteOld s gen d (ckpFile t (gen - 1) i) = d (ckpFile t (gen - 1) i)) := by
  constructor
  · intro h
    unfold deleteOld
    rw [if_pos]
    exact List.mem_map.mpr ⟨i, List.mem_range.mpr h, rfl⟩
  · intro h
    unfold deleteOld
    rw [if_neg]
    intro hm
    obtain ⟨j, hj, e⟩ := List.mem_map.mp hm
    have := (ckp_names.mp e).2.2
    have := List.mem_range.mp hj
    omega

/-! ## Cores and connections -/

theorem fillFrom_eq (first stride : Int) (k : Nat) (cores : List Int) :
    fillFrom first stride k cores = cores ++ (List.range k).map fun j : Nat => first + stride * (j : Int) := by
  induction k generalizing first cores with
  | zero => simp [fillFrom]
  | succ k ih =>
    rw [fillFrom, ih, List.range_succ_eq_map]
    simp only [List.append_assoc, List.singleton_append, List.map_cons, List.map_map]
    congr 2
    · simp
    · apply List.map_congr_left
      intro j _
      simp only [Function.comp, Nat.succ_eq_add_one]
      push_cast
      rw [Int.mul_add]; omega

/-- There is a core for every thread.  Given cores are used in order; then, or without any, the cores
go on from the first core in steps. -/
theorem cores (given : List Int) (first stride : Int) (n : Nat) :
    n ≤ (fillCores given first stride n).length ∧
    (∀ i < given.length, (fillCores given first stride n)[i]? = given[i]?) ∧
    (∀ i, given.length ≤ i → i < n → (fillCores given first stride n)[i]? =
      some ((if 0 ≤ first then first else (given.getLast?.map (· + 1)).getD 0) + stride * ((i - given.length : Nat) : Int))) := by
  have e : fillCores given first stride n = given ++ (List.range (n - given.length)).map
      fun j : Nat => (if 0 ≤ first then first else (given.getLast?.map (· + 1)).getD 0) + stride * (j : Int) := by
    unfold fillCores
    rw [fillFrom_eq]
    have : firstCore given first =
        (if 0 ≤ first then first else (given.getLast?.map (· + 1)).getD 0) := by
      unfold firstCore
      by_cases h : first < 0
      · rw [if_pos h, if_neg (by omega)]; cases given.getLast? <;> rfl
      · rw [if_neg h, if_pos (by omega)]
    rw [this]
  rw [e]
  refine ⟨by simp; omega, ?_, ?_⟩
  · intro i hi
    rw [List.getElem?_append_left hi]
  · intro i h1 h2
    rw [List.getElem?_append_right h1, List.getElem?_map, List.getElem?_range (by omega)]
    rfl

example : fillCores [4, 2] (-1) 1 4 = [4, 2, 3, 4] := by decide +kernel
example : fillCores [] 1 2 4 = [1, 3, 5, 7] := by decide +kernel

/-- A negative step is accepted, and then cores are negative. -/
theorem cores_negative : fillCores [] 1 (-2) 3 = [1, -1, -3] := by decide +kernel

/-- The thread for a connection: the one asked for if there is one of that number, otherwise the next
in turn; always one that exists. -/
theorem pick {n : Nat} (hn : 0 < n) (core : Int) (next : Nat) :
    (∀ c : Nat, core = c → c < n → pickThread n core next = some (c, next)) ∧
    ((∀ c : Nat, core = c → n ≤ c) → pickThread n core next = some (next % n, next + 1)) ∧
    (∃ c k, pickThread n core next = some (c, k) ∧ c < n) := by
  unfold pickThread
  refine ⟨?_, ?_, ?_⟩
  · rintro c rfl hc
    rw [if_neg (by omega)]; simp
  · intro h
    rw [if_pos, if_neg (by omega)]
    rcases (by omega : core < 0 ∨ 0 ≤ core) with h0 | h0
    · exact Or.inl h0
    · have := h core.toNat (by omega); omega
  · split
    · rw [if_neg (by omega)]; exact ⟨_, _, rfl, Nat.mod_lt _ hn⟩
    · exact ⟨_, _, rfl, by omega⟩

/-- Without threads (`--threads=0`) the first connection divides by zero. -/
theorem pick_none (core : Int) (next : Nat) : pickThread 0 core next = none := by
  unfold pickThread
  rw [if_pos (by omega)]; simp

/-- Connections that ask for no thread: where the first `k` of them go. -/
def targets (n : Nat) : Nat → Nat → List Nat
  | 0, _ => []
  | k + 1, next => match pickThread n (-1) next with
    | some (c, next) => c :: targets n k next
    | none => []

/-- They go to the threads in turn, so that every `n` of them in a row go to all `n` threads. -/
theorem turns {n : Nat} (hn : 0 < n) (k next : Nat) :
    targets n k next = (List.range k).map fun j => (next + j) % n := by
  induction k generalizing next with
  | zero => rfl
  | succ k ih =>
    rw [targets, (pick hn (-1) next).2.1 (by intro c h; omega)]
    simp only
    rw [ih, List.range_succ_eq_map]
    simp [Function.comp_def, Nat.add_assoc, Nat.add_comm 1]

theorem turns_all {n : Nat} (hn : 0 < n) (next : Nat) {c : Nat} (hc : c < n) : c ∈ targets n n next := by
  rw [turns hn, List.mem_map]
  rcases Nat.lt_or_ge c (next % n) with h | h
  · refine ⟨n + c - next % n, List.mem_range.mpr (by have := Nat.mod_lt next hn; omega), ?_⟩
    have e : next + (n + c - next % n) = c + n * (next / n + 1) := by
      have := Nat.div_add_mod next n
      have := Nat.mod_lt next hn
      rw [Nat.mul_add]; omega
    rw [e, Nat.add_mul_mod_self_left, Nat.mod_eq_of_lt hc]
  · refine ⟨c - next % n, List.mem_range.mpr (by omega), ?_⟩
    have e : next + (c - next % n) = c + n * (next / n) := by
      have := Nat.div_add_mod next n
      omega
    rw [e, Nat.add_mul_mod_self_left, Nat.mod_eq_of_lt hc]

example : targets 3 5 7 = [1, 2, 0, 1, 2] := by decide +kernel

end Verif.Props.C78
