import Verif.Props.PolicyText2
/- Property theorems C52 (dates given as text on the command line). -/
namespace Dar

/-- The local date and time a text means: the fields not written are those of the present day, seconds are zero when not
written (`struct tm`: years from 1900, months from 0). -/
def DateT'.fields (t : DateT') (now : Tm) : Tm where
  year := (t.year.map fun y => (decVal y : Int) - 1900).getD now.year
  mon := (t.month.map fun m => (decVal m : Int) - 1).getD now.mon
  mday := (t.day.map fun d => (decVal d : Int)).getD now.mday
  hour := decVal t.hour
  min := decVal t.minute
  sec := (t.second.map fun s => (decVal s : Int)).getD 0

/-- All the fields are written with digits and fit in a signed 32 bits integer. -/
structure DateT'.Num (t : DateT') : Prop where
  year : ∀ y, t.year = some y → NumIn 0 (2 ^ 31 - 1) y
  month : ∀ y, t.month = some y → NumIn 0 (2 ^ 31 - 1) y
  day : ∀ y, t.day = some y → NumIn 0 (2 ^ 31 - 1) y
  hour : NumIn 0 (2 ^ 31 - 1) t.hour
  minute : NumIn 0 (2 ^ 31 - 1) t.minute
  second : ∀ y, t.second = some y → NumIn 0 (2 ^ 31 - 1) y

theorem foldl_dec_ge (u : Bytes) : ∀ acc, acc ≤ u.foldl (fun acc c => acc * 10 + (c.toNat - 48)) acc := by
  induction u with
  | nil => intro acc; exact le_refl _
  | cons c u ih => intro acc; exact le_trans (by show acc ≤ acc * 10 + (c.toNat - 48); omega) (ih _)

theorem run_digits (u : Bytes) (hu : ∀ c ∈ u, isDigitByte c) (v : Bytes) : ∀ (st : DateSt) (tm : Tm) (acc : Nat),
    u.foldl (fun acc c => acc * 10 + (c.toNat - 48)) acc < 2 ^ 31 →
    DateScan.run ⟨st, tm, acc⟩ (u ++ v) = DateScan.run ⟨st, tm, u.foldl (fun acc c => acc * 10 + (c.toNat - 48)) acc⟩ v := by
  induction u with
  | nil => intro st tm acc _; rfl
  | cons c u ih =>
    intro st tm acc h
    rw [List.foldl_cons] at h ⊢
    have hc : isDigitByte c := hu c (by simp)
    have hd' : 48 ≤ c ∧ c ≤ 57 := by
      rw [UInt8.le_iff_toNat_le, UInt8.le_iff_toNat_le]; exact hc
    have hne : ∀ x : UInt8, (x.toNat < 48 ∨ 57 < x.toNat) → c ≠ x := by
      rintro x hx rfl; unfold isDigitByte at hc; omega
    have hstep : DateScan.step ⟨st, tm, acc⟩ c = .ok ⟨st, tm, acc * 10 + (c.toNat - 48)⟩ := by
      unfold DateScan.step
      rw [if_neg (hne _ (by decide)), if_neg (hne _ (by decide)), if_neg (hne _ (by decide)), if_neg (by
        rintro (h | h | h | h) <;> exact hne _ (by decide) h), if_pos hd']
      unfold DateScan.addDigit
      simp only
      rw [if_pos (lt_of_le_of_lt (foldl_dec_ge u _) h)]
    rw [List.cons_append, DateScan.run, hstep]
    exact ih (fun c hc => hu c (by simp [hc])) st tm _ h

theorem run_num {u : Bytes} (hu : NumIn 0 (2 ^ 31 - 1) u) (v : Bytes) (st : DateSt) (tm : Tm) :
    DateScan.run ⟨st, tm, 0⟩ (u ++ v) = DateScan.run ⟨st, tm, decVal u⟩ v :=
  run_digits u hu.2.1 v st tm 0 (by have := hu.2.2.2; unfold decVal at this; omega)

theorem run_slash (st st' : DateSt) (h : st = .year ∧ st' = .month ∨ st = .month ∧ st' = .day) (tm : Tm) (n : Nat) (v : Bytes) :
    DateScan.run ⟨st, tm, n⟩ (47 :: v) = match DateScan.store ⟨st, tm, n⟩ with
      | .error e => .error e
      | .ok tm' => DateScan.run ⟨st', tm', 0⟩ v := by
  rw [DateScan.run, DateScan.step, if_pos rfl]
  rcases h with ⟨rfl, rfl⟩ | ⟨rfl, rfl⟩ <;> simp only [DateScan.setEtat] <;> generalize DateScan.store _ = r <;> cases r <;> rfl

theorem run_colon (st st' : DateSt) (h : st = .hour ∧ st' = .min ∨ st = .min ∧ st' = .sec) (tm : Tm) (n : Nat) (v : Bytes) :
    DateScan.run ⟨st, tm, n⟩ (58 :: v) = match DateScan.store ⟨st, tm, n⟩ with
      | .error e => .error e
      | .ok tm' => DateScan.run ⟨st', tm', 0⟩ v := by
  rw [DateScan.run, DateScan.step, if_neg (by decide), if_pos rfl]
  rcases h with ⟨rfl, rfl⟩ | ⟨rfl, rfl⟩ <;> simp only [DateScan.setEtat] <;> generalize DateScan.store _ = r <;> cases r <;> rfl

theorem run_dash (tm : Tm) (n : Nat) (v : Bytes) :
    DateScan.run ⟨.day, tm, n⟩ (45 :: v) = match DateScan.store ⟨.day, tm, n⟩ with
      | .error e => .error e
      | .ok tm' => DateScan.run ⟨.hour, tm', 0⟩ v := by
  rw [DateScan.run, DateScan.step, if_neg (by decide), if_neg (by decide), if_pos rfl]
  simp only [DateScan.setEtat]; generalize DateScan.store _ = r; cases r <;> rfl

/-- running then storing the last field -/
def runStore (sc : DateScan) (v : Bytes) : Res Tm := match sc.run v with
  | .error e => .error e
  | .ok s => s.store

/-- time part -/
theorem run_time (h m : Bytes) (s : Option Bytes) (hh : NumIn 0 (2 ^ 31 - 1) h) (hm : NumIn 0 (2 ^ 31 - 1) m)
    (hs : ∀ y, s = some y → NumIn 0 (2 ^ 31 - 1) y) (tm : Tm) (htm : tm.sec = 0) :
    runStore ⟨.hour, tm, 0⟩ (h ++ 58 :: m ++ secondText s) =
      if decVal h ≤ 23 ∧ decVal m ≤ 59 ∧ (∀ y, s = some y → decVal y ≤ 59) then
        .ok { tm with hour := decVal h, min := decVal m, sec := (s.map fun s => (decVal s : Int)).getD 0 }
      else .error .range := by
  unfold runStore
  rw [List.append_assoc, run_num hh, List.cons_append, run_colon .hour .min (Or.inl ⟨rfl, rfl⟩)]
  simp only [DateScan.store]
  by_cases h1 : decVal h > 23
  · rw [if_pos h1, if_neg (by omega)]
  rw [if_neg h1]
  simp only
  cases s with
  | none =>
    rw [secondText, run_num hm, DateScan.run]
    simp only [DateScan.store]
    by_cases h2 : decVal m > 59
    · rw [if_pos h2, if_neg (by omega)]
    · rw [if_neg h2, if_pos ⟨by omega, by omega, by simp⟩]
      simp [htm]
  | some s =>
    rw [secondText, run_num hm, run_colon .min .sec (Or.inr ⟨rfl, rfl⟩)]
    simp only [DateScan.store]
    by_cases h2 : decVal m > 59
    · rw [if_pos h2, if_neg (by omega)]
    rw [if_neg h2]
    simp only
    have := run_num (hs s rfl) [] .sec { tm with hour := (decVal h : Int), min := (decVal m : Int) }
    rw [List.append_nil] at this
    rw [this, DateScan.run]
    simp only [DateScan.store]
    by_cases h3 : decVal s > 59
    · rw [if_pos h3, if_neg (by rintro ⟨_, _, h⟩; have := h s rfl; omega)]
    · rw [if_neg h3, if_pos ⟨by omega, by omega, by rintro y ⟨⟩; omega⟩]
      simp

theorem runStore_num {u : Bytes} (hu : NumIn 0 (2 ^ 31 - 1) u) (v : Bytes) (st : DateSt) (tm : Tm) :
    runStore ⟨st, tm, 0⟩ (u ++ v) = runStore ⟨st, tm, decVal u⟩ v := by
  unfold runStore; rw [run_num hu]

theorem runStore_slash (st st' : DateSt) (h : st = .year ∧ st' = .month ∨ st = .month ∧ st' = .day) (tm : Tm) (n : Nat) (v : Bytes) :
    runStore ⟨st, tm, n⟩ (47 :: v) = match DateScan.store ⟨st, tm, n⟩ with
      | .error e => .error e
      | .ok tm' => runStore ⟨st', tm', 0⟩ v := by
  unfold runStore; rw [run_slash st st' h]
  cases DateScan.store ⟨st, tm, n⟩ <;> rfl

theorem runStore_dash (tm : Tm) (n : Nat) (v : Bytes) :
    runStore ⟨.day, tm, n⟩ (45 :: v) = match DateScan.store ⟨.day, tm, n⟩ with
      | .error e => .error e
      | .ok tm' => runStore ⟨.hour, tm', 0⟩ v := by
  unfold runStore; rw [run_dash]
  cases DateScan.store ⟨.day, tm, n⟩ <;> rfl

theorem count_digits {u : Bytes} {lo hi : Nat} (h : NumIn lo hi u) : u.count 47 = 0 ∧ u.count 45 = 0 := by
  constructor <;> rw [List.count_eq_zero] <;> intro hc <;> have := h.2.1 _ hc <;> revert this <;> unfold isDigitByte <;> decide

theorem dateText_init (t : DateT') (ht : t.Num) : dateInit t.text = some (match t.date with
    | none => .hour
    | some (none, _) => .day
    | some (some (none, _), _) => .month
    | some (some (some _, _), _) => .year) := by
  obtain ⟨date, h, m, s⟩ := t
  have hh := count_digits ht.hour
  have hm := count_digits ht.minute
  have hs : ∀ y, s = some y → y.count 47 = 0 ∧ y.count 45 = 0 := fun y hy => count_digits (ht.second y hy)
  simp only at hh hm
  rcases date with _ | ⟨_ | ⟨_ | y, mo⟩, d⟩
  · rcases s with _ | s
    · simp [DateT'.text, secondText, dateInit, List.count_cons, hh, hm]
    · simp [DateT'.text, secondText, dateInit, List.count_cons, hh, hm, hs s rfl]
  · have hd := count_digits (ht.day d rfl)
    rcases s with _ | s
    · simp [DateT'.text, secondText, dateInit, List.count_cons, hh, hm, hd]
    · simp [DateT'.text, secondText, dateInit, List.count_cons, hh, hm, hd, hs s rfl]
  · have hd := count_digits (ht.day d rfl)
    have hmo := count_digits (ht.month mo rfl)
    rcases s with _ | s
    · simp [DateT'.text, secondText, dateInit, List.count_cons, hh, hm, hd, hmo]
    · simp [DateT'.text, secondText, dateInit, List.count_cons, hh, hm, hd, hmo, hs s rfl]
  · have hd := count_digits (ht.day d rfl)
    have hmo := count_digits (ht.month mo rfl)
    have hy := count_digits (ht.year y rfl)
    rcases s with _ | s
    · simp [DateT'.text, secondText, dateInit, List.count_cons, hh, hm, hd, hmo, hy]
    · simp [DateT'.text, secondText, dateInit, List.count_cons, hh, hm, hd, hmo, hy, hs s rfl]

/-- what is left to prove about the time is in `Ok` of the whole -/
theorem DateT'.ok_iff (t : DateT') (ht : t.Num) : t.Ok ↔
    (∀ y, t.year = some y → 1970 ≤ decVal y) ∧ (∀ y, t.month = some y → 1 ≤ decVal y ∧ decVal y ≤ 12) ∧
    (∀ y, t.day = some y → 1 ≤ decVal y ∧ decVal y ≤ 31) ∧ decVal t.hour ≤ 23 ∧ decVal t.minute ≤ 59 ∧ (∀ y, t.second = some y → decVal y ≤ 59) := by
  constructor
  · rintro ⟨h1, h2, h3, h4, h5, h6⟩
    exact ⟨fun y hy => (h1 y hy).2.2.1, fun y hy => (h2 y hy).2.2, fun y hy => (h3 y hy).2.2, h4.2.2.2, h5.2.2.2, fun y hy => (h6 y hy).2.2.2⟩
  · rintro ⟨h1, h2, h3, h4, h5, h6⟩
    refine ⟨fun y hy => ?_, fun y hy => ?_, fun y hy => ?_, ?_, ?_, fun y hy => ?_⟩
    · have := ht.year y hy; exact ⟨this.1, this.2.1, h1 y hy, this.2.2.2⟩
    · have := ht.month y hy; exact ⟨this.1, this.2.1, h2 y hy⟩
    · have := ht.day y hy; exact ⟨this.1, this.2.1, h3 y hy⟩
    · exact ⟨ht.hour.1, ht.hour.2.1, by omega, h4⟩
    · exact ⟨ht.minute.1, ht.minute.2.1, by omega, h5⟩
    · have := ht.second y hy; exact ⟨this.1, this.2.1, by omega, h6 y hy⟩

open Classical in
theorem convertDate_text (ck : Clock) (t : DateT') (ht : t.Num) : convertDate ck t.text =
    if t.Ok then
      (if ck.mktime (t.fields ck.local_) > ck.now then .error .range else .ok (ck.mktime (t.fields ck.local_) % 2 ^ 64).toNat)
    else .error .range := by
  have key : ∀ st, dateInit t.text = some st → convertDate ck t.text =
      match runStore ⟨st, { ck.local_ with sec := 0, min := 0, hour := 0 }, 0⟩ t.text with
      | .error e => .error e
      | .ok tm => if ck.mktime tm > ck.now then .error .range else .ok (ck.mktime tm % 2 ^ 64).toNat := by
    intro st h
    unfold convertDate runStore
    rw [h]
    simp only
    cases DateScan.run _ t.text <;> rfl
  rw [key _ (dateText_init t ht)]
  suffices hsuf : runStore ⟨(match t.date with
    | none => .hour
    | some (none, _) => .day
    | some (some (none, _), _) => .month
    | some (some (some _, _), _) => .year), { ck.local_ with sec := 0, min := 0, hour := 0 }, 0⟩ t.text =
      if t.Ok then .ok (t.fields ck.local_) else .error .range by
    rw [hsuf]
    by_cases h : t.Ok
    · rw [if_pos h, if_pos h]
    · rw [if_neg h, if_neg h]
  simp only [DateT'.ok_iff t ht]
  obtain ⟨date, h, m, s⟩ := t
  have hrt := fun (tm : Tm) (htm : tm.sec = 0) => run_time h m s ht.hour ht.minute ht.second tm htm
  rcases date with _ | ⟨_ | ⟨_ | y, mo⟩, d⟩
  · simp only [DateT'.text, List.nil_append]
    rw [hrt _ rfl]
    simp [DateT'.year, DateT'.month, DateT'.day, DateT'.fields]
  · have hd := ht.day d rfl
    simp only [DateT'.text]
    rw [show d ++ [45] ++ h ++ 58 :: m ++ secondText s =
      d ++ (45 :: (h ++ 58 :: m ++ secondText s)) by simp]
    rw [runStore_num hd, runStore_dash]
    simp only [DateScan.store]
    by_cases h1 : decVal d < 1 ∨ decVal d > 31
    · rw [if_pos h1, if_neg]
      rintro ⟨_, _, h3, _⟩
      have := h3 d rfl; omega
    rw [if_neg h1]
    simp only
    rw [hrt _ rfl]
    by_cases h2 : decVal h ≤ 23 ∧ decVal m ≤ 59 ∧ (∀ y, s = some y → decVal y ≤ 59)
    · rw [if_pos h2, if_pos]
      · simp [DateT'.year, DateT'.month, DateT'.day, DateT'.fields]
      · refine ⟨by rintro y ⟨⟩, by rintro y ⟨⟩, ?_, h2⟩
        intro z hz; simp [DateT'.day, DateT'.month, DateT'.year] at hz; subst hz; omega
    · rw [if_neg h2, if_neg]
      rintro ⟨_, _, _, h3⟩; exact h2 h3
  · have hd := ht.day d rfl
    have hmo := ht.month mo rfl
    simp only [DateT'.text]
    rw [show mo ++ 47 :: d ++ [45] ++ h ++ 58 :: m ++ secondText s =
      mo ++ (47 :: (d ++ (45 :: (h ++ 58 :: m ++ secondText s)))) by simp]
    rw [runStore_num hmo, runStore_slash .month .day (Or.inr ⟨rfl, rfl⟩)]
    simp only [DateScan.store]
    by_cases h0 : decVal mo < 1 ∨ decVal mo > 12
    · rw [if_pos h0, if_neg]
      rintro ⟨_, h3, _⟩
      have := h3 mo rfl; omega
    rw [if_neg h0]
    simp only
    rw [runStore_num hd, runStore_dash]
    simp only [DateScan.store]
    by_cases h1 : decVal d < 1 ∨ decVal d > 31
    · rw [if_pos h1, if_neg]
      rintro ⟨_, _, h3, _⟩
      have := h3 d rfl; omega
    rw [if_neg h1]
    simp only
    rw [hrt _ rfl]
    by_cases h2 : decVal h ≤ 23 ∧ decVal m ≤ 59 ∧ (∀ y, s = some y → decVal y ≤ 59)
    · rw [if_pos h2, if_pos]
      · simp [DateT'.year, DateT'.month, DateT'.day, DateT'.fields]
      · refine ⟨by rintro y ⟨⟩, ?_, ?_, h2⟩
        · intro z hz; simp [DateT'.day, DateT'.month, DateT'.year] at hz; subst hz; omega
        · intro z hz; simp [DateT'.day, DateT'.month, DateT'.year] at hz; subst hz; omega
    · rw [if_neg h2, if_neg]
      rintro ⟨_, _, _, h3⟩; exact h2 h3
  · have hd := ht.day d rfl
    have hmo := ht.month mo rfl
    have hy := ht.year y rfl
    simp only [DateT'.text]
    rw [show y ++ 47 :: mo ++ 47 :: d ++ [45] ++ h ++ 58 :: m ++ secondText s =
      y ++ (47 :: (mo ++ (47 :: (d ++ (45 :: (h ++ 58 :: m ++ secondText s)))))) by simp]
    rw [runStore_num hy, runStore_slash .year .month (Or.inl ⟨rfl, rfl⟩)]
    simp only [DateScan.store]
    by_cases hy0 : decVal y < 1970
    · rw [if_pos hy0, if_neg]
      rintro ⟨h3, _⟩
      have := h3 y rfl; omega
    rw [if_neg hy0]
    simp only
    rw [runStore_num hmo, runStore_slash .month .day (Or.inr ⟨rfl, rfl⟩)]
    simp only [DateScan.store]
    by_cases h0 : decVal mo < 1 ∨ decVal mo > 12
    · rw [if_pos h0, if_neg]
      rintro ⟨_, h3, _⟩
      have := h3 mo rfl; omega
    rw [if_neg h0]
    simp only
    rw [runStore_num hd, runStore_dash]
    simp only [DateScan.store]
    by_cases h1 : decVal d < 1 ∨ decVal d > 31
    · rw [if_pos h1, if_neg]
      rintro ⟨_, _, h3, _⟩
      have := h3 d rfl; omega
    rw [if_neg h1]
    simp only
    rw [hrt _ rfl]
    by_cases h2 : decVal h ≤ 23 ∧ decVal m ≤ 59 ∧ (∀ y, s = some y → decVal y ≤ 59)
    · rw [if_pos h2, if_pos]
      · simp [DateT'.year, DateT'.month, DateT'.day, DateT'.fields]
      · refine ⟨?_, ?_, ?_, h2⟩
        · intro z hz; simp [DateT'.day, DateT'.month, DateT'.year] at hz; subst hz; omega
        · intro z hz; simp [DateT'.day, DateT'.month, DateT'.year] at hz; subst hz; omega
        · intro z hz; simp [DateT'.day, DateT'.month, DateT'.year] at hz; subst hz; omega
    · rw [if_neg h2, if_neg]
      rintro ⟨_, _, _, h3⟩; exact h2 h3

/-- the text of a date is not a number -/
theorem DateT'.text_colon (t : DateT') : ∃ c ∈ t.text, ¬ isDigitByte c := by
  refine ⟨58, ?_, by unfold isDigitByte; decide⟩
  simp [DateT'.text]

/-- A date of the documented form, all its fields in range, gives the time that the system gives for these local fields;
a time in the future is refused.  (A negative time, which mktime also uses to report an error, is taken modulo 2^64.) -/
theorem C52_date (ck : Clock) (t : DateT') (ht : t.Ok) :
    (ck.mktime (t.fields ck.local_) > ck.now → dateArg ck t.text = .error .range) ∧
    (ck.mktime (t.fields ck.local_) ≤ ck.now → dateArg ck t.text = .ok (ck.mktime (t.fields ck.local_) % 2 ^ 64).toNat) := by
  have hnum : t.Num := by
    obtain ⟨h1, h2, h3, h4, h5, h6⟩ := ht
    have w : ∀ {lo hi u}, NumIn lo hi u → hi ≤ 2 ^ 31 - 1 → NumIn 0 (2 ^ 31 - 1) u := fun h hle => ⟨h.1, h.2.1, by omega, le_trans h.2.2.2 hle⟩
    exact ⟨fun y hy => w (h1 y hy) (by decide), fun y hy => w (h2 y hy) (by decide), fun y hy => w (h3 y hy) (by decide), w h4 (by decide),
      w h5 (by decide), fun y hy => w (h6 y hy) (by decide)⟩
  unfold dateArg
  rw [(C05_refuse _).2 t.text_colon]
  simp only
  rw [convertDate_text ck t hnum, if_pos ht]
  exact ⟨fun h => if_pos h, fun h => if_neg (by omega)⟩

/-- A date of the documented form with a field out of range (month 13, hour 24, year 1969, ...) is refused. -/
theorem C52_out_of_range (ck : Clock) (t : DateT') (hn : t.Num) (ht : ¬ t.Ok) : dateArg ck t.text = .error .range := by
  unfold dateArg
  rw [(C05_refuse _).2 t.text_colon]
  simp only
  rw [convertDate_text ck t hn, if_neg ht]

/-- A number, whatever its size, is taken as a number of seconds. -/
theorem C52_seconds (ck : Clock) (s : Bytes) (hne : s ≠ []) (hs : ∀ c ∈ s, isDigitByte c) : dateArg ck s = .ok (decVal s) := by
  obtain ⟨d, h1, h2, _⟩ := C05_parse s hne hs
  unfold dateArg
  rw [h1]
  simp only
  rw [h2]

/-- Nothing else than digits, slashes, colons, dashes and blanks makes a date. -/
theorem C52_chars (ck : Clock) (s : Bytes) (d : Nat) (h : dateArg ck s = .ok d) : ∀ c ∈ s, DateChar c := dateArg_chars ck s d h

/-- The future is refused whatever the form of the date (a number of seconds apart). -/
theorem C52_past (ck : Clock) (hm : ∀ tm, 0 ≤ ck.mktime tm) (s : Bytes) (hs : ∃ c ∈ s, ¬ isDigitByte c) (d : Nat)
    (h : dateArg ck s = .ok d) : (d : Int) ≤ ck.now := by
  unfold dateArg at h
  rw [(C05_refuse s).2 hs] at h
  simp only [convertDate] at h
  split at h
  · cases h
  · split at h
    · cases h
    · split at h
      · cases h
      · split at h
        · cases h
        · cases h
          rename_i tm _ hle
          have := hm tm
          have h2 : (0 : Int) ≤ ck.mktime tm % 2 ^ 64 := Int.emod_nonneg _ (by decide)
          rw [Int.toNat_of_nonneg h2]
          have h3 : ck.mktime tm % 2 ^ 64 ≤ ck.mktime tm := by omega
          omega

/-- Finding: texts outside of the documented form are accepted, for instance the empty field of `:` (midnight) and an hour
without minutes. -/
theorem C52_lax_counterexample (ck : Clock) (hm : ck.mktime { ck.local_ with hour := 0, min := 0, sec := 0 } ≤ ck.now) :
    dateArg ck (asc ":") = .ok (ck.mktime { ck.local_ with hour := 0, min := 0, sec := 0 } % 2 ^ 64).toNat := by
  have e : asc ":" = [58] := by decide +kernel
  rw [e]
  unfold dateArg
  rw [(C05_refuse _).2 ⟨58, by simp, by unfold isDigitByte; decide⟩]
  simp only [convertDate]
  simp [dateInit, DateScan.run, DateScan.step, DateScan.setEtat, DateScan.store]
  exact hm

-- a complete date, a month and day, a time
def exDateText : DateT' := ⟨some (some (some (asc "2005"), asc "11"), asc "19"), asc "19", asc "38", some (asc "48")⟩
example : exDateText.text = asc "2005/11/19-19:38:48" ∧ exDateText.Ok ∧ exClock.mktime (exDateText.fields exClock.local_) ≤ exClock.now := by
  have num : ∀ (s : String) lo hi, (decide (asc s ≠ []) && (asc s).all (fun c => decide (48 ≤ c.toNat ∧ c.toNat ≤ 57)) && decide (lo ≤ decVal (asc s)) && decide (decVal (asc s) ≤ hi)) = true →
      NumIn lo hi (asc s) := by
    intro s lo hi h
    simp only [Bool.and_eq_true, decide_eq_true_eq, List.all_eq_true] at h
    exact ⟨h.1.1.1, h.1.1.2, h.1.2, h.2⟩
  refine ⟨by decide +kernel, ⟨?_, ?_, ?_, ?_, ?_, ?_⟩, by decide +kernel⟩
  · rintro y ⟨⟩; exact num _ _ _ (by decide +kernel)
  · rintro y ⟨⟩; exact num _ _ _ (by decide +kernel)
  · rintro y ⟨⟩; exact num _ _ _ (by decide +kernel)
  · exact num _ _ _ (by decide +kernel)
  · exact num _ _ _ (by decide +kernel)
  · rintro y ⟨⟩; exact num _ _ _ (by decide +kernel)
example : ∃ d, dateArg exClock (asc "12:30") = .ok d ∧ dateArg exClock (asc "24:30") = .error .range := ⟨_, rfl, rfl⟩

end Dar
