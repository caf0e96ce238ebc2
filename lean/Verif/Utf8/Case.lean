import Verif.Utf8.Spec
/- Facts about the case tables, by evaluation of the complete tables in the kernel, lifted to all
code points. -/
namespace Verif.Utf8
open Spec

/-- the points of the ranges of an entry list. -/
def points (es : List CaseMapping) : List Nat := es.flatMap fun e => List.range' e.c1 (e.c2 + 1 - e.c1)

theorem foldLoop_out (c : Nat) : ∀ es : List CaseMapping, c ∉ points es → foldLoop c es = c := by
  intro es
  induction es with
  | nil => intro _; rfl
  | cons e es ih =>
    intro h
    simp only [points, List.flatMap_cons, List.mem_append, not_or, List.mem_range'_1] at h
    rw [foldLoop]
    by_cases h1 : c ≤ e.c2
    · rw [if_pos h1, if_pos (by omega)]
    · rw [if_neg h1]; exact ih h.2

def upPoints (es : List CaseMapping) : List Nat :=
  es.flatMap fun e => List.range' (e.c1 + e.m2 - e.c2) (e.c2 + 1 - e.c1)

theorem upperLoop_out (c : Nat) : ∀ es : List CaseMapping, (∀ e ∈ es, e.c1 ≤ e.c2 ∧ e.c2 ≤ e.c1 + e.m2) →
    c ∉ upPoints es → upperLoop c es = c := by
  intro es
  induction es with
  | nil => intro _ _; rfl
  | cons e es ih =>
    intro hw h
    have := hw e (by simp)
    simp only [upPoints, List.flatMap_cons, List.mem_append, not_or, List.mem_range'_1] at h
    rw [upperLoop]
    by_cases h1 : c ≤ e.m2
    · rw [if_pos h1, if_pos (by omega)]
    · rw [if_neg h1]; exact ih (fun e he => hw e (by simp [he])) h.2

/-! Versions that evaluate quickly in the kernel. -/

def foldB (e : CaseMapping) (c : Nat) : Nat :=
  bif Nat.beq e.m2 (e.c2 + 1) then (bif Nat.beq (e.c2 % 2) (c % 2) then c + 1 else c) else c + e.m2 - e.c2

noncomputable def foldLoopB (c : Nat) (es : List CaseMapping) : Nat :=
  List.rec (motive := fun _ => Nat) c
    (fun e _ r => Bool.rec r (Bool.rec c (foldB e c) (Nat.ble e.c1 c)) (Nat.ble c e.c2)) es

def unfoldB (e : CaseMapping) (c : Nat) : Nat :=
  bif Nat.beq e.m2 (e.c2 + 1) then (bif Nat.beq (e.m2 % 2) (c % 2) then c - 1 else c) else c + e.c2 - e.m2

noncomputable def upperLoopB (c : Nat) (es : List CaseMapping) : Nat :=
  List.rec (motive := fun _ => Nat) c
    (fun e _ r => Bool.rec r (Bool.rec c (unfoldB e c) (Nat.ble (e.c1 + e.m2) (c + e.c2))) (Nat.ble c e.m2)) es

theorem beq_dec (a b : Nat) : Nat.beq a b = decide (a = b) := by
  by_cases h : a = b
  · subst h; simp
  · simp only [h, decide_false]; exact Bool.eq_false_iff.2 (fun hb => h (Nat.eq_of_beq_eq_true hb))

theorem ble_dec (a b : Nat) : Nat.ble a b = decide (a ≤ b) := by
  by_cases h : a ≤ b
  · simp [h]
  · simp [h]; exact Bool.eq_false_iff.2 (fun hb => h (Nat.le_of_ble_eq_true hb))

theorem foldB_eq (e : CaseMapping) (c : Nat) : foldB e c = e.fold c := by
  unfold foldB CaseMapping.fold
  simp only [beq_dec, Bool.cond_decide]
  repeat' split
  all_goals omega

theorem boolRec {α : Type} (b : Bool) (x y : α) : Bool.rec (motive := fun _ => α) x y b = if b = true then y else x := by
  cases b <;> rfl

theorem foldLoopB_eq (c : Nat) : ∀ es, foldLoopB c es = foldLoop c es
  | [] => rfl
  | e :: es => by
    change Bool.rec (motive := fun _ => Nat) (foldLoopB c es) (Bool.rec (motive := fun _ => Nat) c (foldB e c) (Nat.ble e.c1 c)) (Nat.ble c e.c2) = _
    rw [foldLoop, foldLoopB_eq c es, foldB_eq, ble_dec, ble_dec]
    simp only [boolRec, decide_eq_true_eq]
    split
    · by_cases h : c < e.c1
      · rw [if_pos h, if_neg (by omega)]
      · rw [if_neg h, if_pos (by omega)]
    · rfl

theorem unfoldB_eq (e : CaseMapping) (c : Nat) : unfoldB e c = e.unfold c := by
  unfold unfoldB CaseMapping.unfold
  simp only [beq_dec, Bool.cond_decide]
  repeat' split
  all_goals omega

theorem upperLoopB_eq (c : Nat) : ∀ es, upperLoopB c es = upperLoop c es
  | [] => rfl
  | e :: es => by
    change Bool.rec (motive := fun _ => Nat) (upperLoopB c es)
      (Bool.rec (motive := fun _ => Nat) c (unfoldB e c) (Nat.ble (e.c1 + e.m2) (c + e.c2))) (Nat.ble c e.m2) = _
    rw [upperLoop, upperLoopB_eq c es, unfoldB_eq, ble_dec, ble_dec]
    simp only [boolRec, decide_eq_true_eq]
    split
    · by_cases h : (c : Int) < (e.c1 : Int) + ((e.m2 : Int) - e.c2)
      · rw [if_pos h, if_neg (by omega)]
      · rw [if_neg h, if_pos (by omega)]
    · rfl

/-- encoded length. -/
def encLen (c : Nat) : Nat :=
  bif Nat.blt c 0x80 then 1 else bif Nat.blt c 0x800 then 2 else bif Nat.blt c 0x10000 then 3 else 4

theorem encLen_eq (c : Nat) : (enc c).length = encLen c := by
  have hb : ∀ a b, Nat.blt a b = decide (a < b) := fun a b => by
    simp only [Nat.blt, ble_dec]; exact decide_eq_decide.2 Iff.rfl
  unfold enc encLen
  simp only [hb, Bool.cond_decide]
  repeat' split
  all_goals rfl

def scalarB (c : Nat) : Bool := Nat.blt c 0xD800 || (Nat.ble 0xE000 c && Nat.blt c 0x110000)

theorem scalarB_eq (c : Nat) : scalarB c = true → Scalar c := by
  simp [scalarB, Scalar, Nat.blt, Nat.ble_eq]
  omega

/-- the selected entries written out (they evaluate faster). -/
def foldTab : List CaseMapping :=
  [⟨nat_lit 65, nat_lit 90, nat_lit 122⟩, ⟨nat_lit 181, nat_lit 181, nat_lit 956⟩, ⟨nat_lit 192, nat_lit 214, nat_lit 246⟩, ⟨nat_lit 216, nat_lit 222, nat_lit 254⟩,
   ⟨nat_lit 256, nat_lit 302, nat_lit 303⟩, ⟨nat_lit 306, nat_lit 310, nat_lit 311⟩, ⟨nat_lit 313, nat_lit 327, nat_lit 328⟩, ⟨nat_lit 330, nat_lit 374, nat_lit 375⟩,
   ⟨nat_lit 376, nat_lit 376, nat_lit 255⟩, ⟨nat_lit 377, nat_lit 381, nat_lit 382⟩, ⟨nat_lit 383, nat_lit 383, nat_lit 115⟩, ⟨nat_lit 385, nat_lit 385, nat_lit 595⟩,
   ⟨nat_lit 386, nat_lit 388, nat_lit 389⟩, ⟨nat_lit 390, nat_lit 390, nat_lit 596⟩, ⟨nat_lit 391, nat_lit 391, nat_lit 392⟩, ⟨nat_lit 393, nat_lit 394, nat_lit 599⟩,
   ⟨nat_lit 395, nat_lit 395, nat_lit 396⟩, ⟨nat_lit 398, nat_lit 398, nat_lit 477⟩, ⟨nat_lit 399, nat_lit 399, nat_lit 601⟩, ⟨nat_lit 400, nat_lit 400, nat_lit 603⟩,
   ⟨nat_lit 401, nat_lit 401, nat_lit 402⟩, ⟨nat_lit 403, nat_lit 403, nat_lit 608⟩, ⟨nat_lit 404, nat_lit 404, nat_lit 611⟩, ⟨nat_lit 406, nat_lit 406, nat_lit 617⟩,
   ⟨nat_lit 407, nat_lit 407, nat_lit 616⟩, ⟨nat_lit 408, nat_lit 408, nat_lit 409⟩, ⟨nat_lit 412, nat_lit 412, nat_lit 623⟩, ⟨nat_lit 413, nat_lit 413, nat_lit 626⟩,
   ⟨nat_lit 415, nat_lit 415, nat_lit 629⟩, ⟨nat_lit 416, nat_lit 420, nat_lit 421⟩, ⟨nat_lit 422, nat_lit 422, nat_lit 640⟩, ⟨nat_lit 423, nat_lit 423, nat_lit 424⟩,
   ⟨nat_lit 425, nat_lit 425, nat_lit 643⟩, ⟨nat_lit 428, nat_lit 428, nat_lit 429⟩, ⟨nat_lit 430, nat_lit 430, nat_lit 648⟩, ⟨nat_lit 431, nat_lit 431, nat_lit 432⟩,
   ⟨nat_lit 433, nat_lit 434, nat_lit 651⟩, ⟨nat_lit 435, nat_lit 437, nat_lit 438⟩, ⟨nat_lit 439, nat_lit 439, nat_lit 658⟩, ⟨nat_lit 440, nat_lit 440, nat_lit 441⟩,
   ⟨nat_lit 444, nat_lit 444, nat_lit 445⟩, ⟨nat_lit 452, nat_lit 452, nat_lit 454⟩, ⟨nat_lit 453, nat_lit 453, nat_lit 454⟩, ⟨nat_lit 455, nat_lit 455, nat_lit 457⟩,
   ⟨nat_lit 456, nat_lit 456, nat_lit 457⟩, ⟨nat_lit 458, nat_lit 458, nat_lit 460⟩, ⟨nat_lit 459, nat_lit 475, nat_lit 476⟩, ⟨nat_lit 478, nat_lit 494, nat_lit 495⟩,
   ⟨nat_lit 497, nat_lit 497, nat_lit 499⟩, ⟨nat_lit 498, nat_lit 500, nat_lit 501⟩, ⟨nat_lit 502, nat_lit 502, nat_lit 405⟩, ⟨nat_lit 503, nat_lit 503, nat_lit 447⟩,
   ⟨nat_lit 504, nat_lit 542, nat_lit 543⟩, ⟨nat_lit 544, nat_lit 544, nat_lit 414⟩, ⟨nat_lit 546, nat_lit 562, nat_lit 563⟩, ⟨nat_lit 570, nat_lit 570, nat_lit 11365⟩,
   ⟨nat_lit 571, nat_lit 571, nat_lit 572⟩, ⟨nat_lit 573, nat_lit 573, nat_lit 410⟩, ⟨nat_lit 574, nat_lit 574, nat_lit 11366⟩, ⟨nat_lit 577, nat_lit 577, nat_lit 578⟩,
   ⟨nat_lit 579, nat_lit 579, nat_lit 384⟩, ⟨nat_lit 580, nat_lit 580, nat_lit 649⟩, ⟨nat_lit 581, nat_lit 581, nat_lit 652⟩, ⟨nat_lit 582, nat_lit 590, nat_lit 591⟩,
   ⟨nat_lit 837, nat_lit 837, nat_lit 953⟩, ⟨nat_lit 880, nat_lit 882, nat_lit 883⟩, ⟨nat_lit 886, nat_lit 886, nat_lit 887⟩, ⟨nat_lit 895, nat_lit 895, nat_lit 1011⟩,
   ⟨nat_lit 902, nat_lit 902, nat_lit 940⟩, ⟨nat_lit 904, nat_lit 906, nat_lit 943⟩, ⟨nat_lit 908, nat_lit 908, nat_lit 972⟩, ⟨nat_lit 910, nat_lit 911, nat_lit 974⟩,
   ⟨nat_lit 913, nat_lit 929, nat_lit 961⟩, ⟨nat_lit 931, nat_lit 939, nat_lit 971⟩, ⟨nat_lit 962, nat_lit 962, nat_lit 963⟩, ⟨nat_lit 975, nat_lit 975, nat_lit 983⟩,
   ⟨nat_lit 976, nat_lit 976, nat_lit 946⟩, ⟨nat_lit 977, nat_lit 977, nat_lit 952⟩, ⟨nat_lit 981, nat_lit 981, nat_lit 966⟩, ⟨nat_lit 982, nat_lit 982, nat_lit 960⟩,
   ⟨nat_lit 984, nat_lit 1006, nat_lit 1007⟩, ⟨nat_lit 1008, nat_lit 1008, nat_lit 954⟩, ⟨nat_lit 1009, nat_lit 1009, nat_lit 961⟩, ⟨nat_lit 1012, nat_lit 1012, nat_lit 952⟩,
   ⟨nat_lit 1013, nat_lit 1013, nat_lit 949⟩, ⟨nat_lit 1015, nat_lit 1015, nat_lit 1016⟩, ⟨nat_lit 1017, nat_lit 1017, nat_lit 1010⟩, ⟨nat_lit 1018, nat_lit 1018, nat_lit 1019⟩,
   ⟨nat_lit 1021, nat_lit 1023, nat_lit 893⟩, ⟨nat_lit 1024, nat_lit 1039, nat_lit 1119⟩, ⟨nat_lit 1040, nat_lit 1071, nat_lit 1103⟩, ⟨nat_lit 1120, nat_lit 1152, nat_lit 1153⟩,
   ⟨nat_lit 1162, nat_lit 1214, nat_lit 1215⟩, ⟨nat_lit 1216, nat_lit 1216, nat_lit 1231⟩, ⟨nat_lit 1217, nat_lit 1229, nat_lit 1230⟩, ⟨nat_lit 1232, nat_lit 1326, nat_lit 1327⟩,
   ⟨nat_lit 1329, nat_lit 1366, nat_lit 1414⟩, ⟨nat_lit 4256, nat_lit 4293, nat_lit 11557⟩, ⟨nat_lit 4295, nat_lit 4295, nat_lit 11559⟩, ⟨nat_lit 4301, nat_lit 4301, nat_lit 11565⟩,
   ⟨nat_lit 5112, nat_lit 5117, nat_lit 5109⟩, ⟨nat_lit 7296, nat_lit 7296, nat_lit 1074⟩, ⟨nat_lit 7297, nat_lit 7297, nat_lit 1076⟩, ⟨nat_lit 7298, nat_lit 7298, nat_lit 1086⟩,
   ⟨nat_lit 7299, nat_lit 7300, nat_lit 1090⟩, ⟨nat_lit 7301, nat_lit 7301, nat_lit 1090⟩, ⟨nat_lit 7302, nat_lit 7302, nat_lit 1098⟩, ⟨nat_lit 7303, nat_lit 7303, nat_lit 1123⟩,
   ⟨nat_lit 7304, nat_lit 7304, nat_lit 42571⟩, ⟨nat_lit 7312, nat_lit 7354, nat_lit 4346⟩, ⟨nat_lit 7357, nat_lit 7359, nat_lit 4351⟩, ⟨nat_lit 7680, nat_lit 7828, nat_lit 7829⟩,
   ⟨nat_lit 7835, nat_lit 7835, nat_lit 7777⟩, ⟨nat_lit 7838, nat_lit 7838, nat_lit 223⟩, ⟨nat_lit 7840, nat_lit 7934, nat_lit 7935⟩, ⟨nat_lit 7944, nat_lit 7951, nat_lit 7943⟩,
   ⟨nat_lit 7960, nat_lit 7965, nat_lit 7957⟩, ⟨nat_lit 7976, nat_lit 7983, nat_lit 7975⟩, ⟨nat_lit 7992, nat_lit 7999, nat_lit 7991⟩, ⟨nat_lit 8008, nat_lit 8013, nat_lit 8005⟩,
   ⟨nat_lit 8025, nat_lit 8031, nat_lit 8023⟩, ⟨nat_lit 8040, nat_lit 8047, nat_lit 8039⟩, ⟨nat_lit 8072, nat_lit 8079, nat_lit 8071⟩, ⟨nat_lit 8088, nat_lit 8095, nat_lit 8087⟩,
   ⟨nat_lit 8104, nat_lit 8111, nat_lit 8103⟩, ⟨nat_lit 8120, nat_lit 8121, nat_lit 8113⟩, ⟨nat_lit 8122, nat_lit 8123, nat_lit 8049⟩, ⟨nat_lit 8124, nat_lit 8124, nat_lit 8115⟩,
   ⟨nat_lit 8126, nat_lit 8126, nat_lit 953⟩, ⟨nat_lit 8136, nat_lit 8139, nat_lit 8053⟩, ⟨nat_lit 8140, nat_lit 8140, nat_lit 8131⟩, ⟨nat_lit 8152, nat_lit 8153, nat_lit 8145⟩,
   ⟨nat_lit 8154, nat_lit 8155, nat_lit 8055⟩, ⟨nat_lit 8168, nat_lit 8169, nat_lit 8161⟩, ⟨nat_lit 8170, nat_lit 8171, nat_lit 8059⟩, ⟨nat_lit 8172, nat_lit 8172, nat_lit 8165⟩,
   ⟨nat_lit 8184, nat_lit 8185, nat_lit 8057⟩, ⟨nat_lit 8186, nat_lit 8187, nat_lit 8061⟩, ⟨nat_lit 8188, nat_lit 8188, nat_lit 8179⟩, ⟨nat_lit 8486, nat_lit 8486, nat_lit 969⟩,
   ⟨nat_lit 8490, nat_lit 8490, nat_lit 107⟩, ⟨nat_lit 8491, nat_lit 8491, nat_lit 229⟩, ⟨nat_lit 8498, nat_lit 8498, nat_lit 8526⟩, ⟨nat_lit 8544, nat_lit 8559, nat_lit 8575⟩,
   ⟨nat_lit 8579, nat_lit 8579, nat_lit 8580⟩, ⟨nat_lit 9398, nat_lit 9423, nat_lit 9449⟩, ⟨nat_lit 11264, nat_lit 11311, nat_lit 11359⟩, ⟨nat_lit 11360, nat_lit 11360, nat_lit 11361⟩,
   ⟨nat_lit 11362, nat_lit 11362, nat_lit 619⟩, ⟨nat_lit 11363, nat_lit 11363, nat_lit 7549⟩, ⟨nat_lit 11364, nat_lit 11364, nat_lit 637⟩, ⟨nat_lit 11367, nat_lit 11371, nat_lit 11372⟩,
   ⟨nat_lit 11373, nat_lit 11373, nat_lit 593⟩, ⟨nat_lit 11374, nat_lit 11374, nat_lit 625⟩, ⟨nat_lit 11375, nat_lit 11375, nat_lit 592⟩, ⟨nat_lit 11376, nat_lit 11376, nat_lit 594⟩,
   ⟨nat_lit 11378, nat_lit 11378, nat_lit 11379⟩, ⟨nat_lit 11381, nat_lit 11381, nat_lit 11382⟩, ⟨nat_lit 11390, nat_lit 11391, nat_lit 576⟩, ⟨nat_lit 11392, nat_lit 11490, nat_lit 11491⟩,
   ⟨nat_lit 11499, nat_lit 11501, nat_lit 11502⟩, ⟨nat_lit 11506, nat_lit 11506, nat_lit 11507⟩, ⟨nat_lit 42560, nat_lit 42604, nat_lit 42605⟩, ⟨nat_lit 42624, nat_lit 42650, nat_lit 42651⟩,
   ⟨nat_lit 42786, nat_lit 42798, nat_lit 42799⟩, ⟨nat_lit 42802, nat_lit 42862, nat_lit 42863⟩, ⟨nat_lit 42873, nat_lit 42875, nat_lit 42876⟩, ⟨nat_lit 42877, nat_lit 42877, nat_lit 7545⟩,
   ⟨nat_lit 42878, nat_lit 42886, nat_lit 42887⟩, ⟨nat_lit 42891, nat_lit 42891, nat_lit 42892⟩, ⟨nat_lit 42893, nat_lit 42893, nat_lit 613⟩, ⟨nat_lit 42896, nat_lit 42898, nat_lit 42899⟩,
   ⟨nat_lit 42902, nat_lit 42920, nat_lit 42921⟩, ⟨nat_lit 42922, nat_lit 42922, nat_lit 614⟩, ⟨nat_lit 42923, nat_lit 42923, nat_lit 604⟩, ⟨nat_lit 42924, nat_lit 42924, nat_lit 609⟩,
   ⟨nat_lit 42925, nat_lit 42925, nat_lit 620⟩, ⟨nat_lit 42926, nat_lit 42926, nat_lit 618⟩, ⟨nat_lit 42928, nat_lit 42928, nat_lit 670⟩, ⟨nat_lit 42929, nat_lit 42929, nat_lit 647⟩,
   ⟨nat_lit 42930, nat_lit 42930, nat_lit 669⟩, ⟨nat_lit 42931, nat_lit 42931, nat_lit 43859⟩, ⟨nat_lit 42932, nat_lit 42946, nat_lit 42947⟩, ⟨nat_lit 42948, nat_lit 42948, nat_lit 42900⟩,
   ⟨nat_lit 42949, nat_lit 42949, nat_lit 642⟩, ⟨nat_lit 42950, nat_lit 42950, nat_lit 7566⟩, ⟨nat_lit 42951, nat_lit 42953, nat_lit 42954⟩, ⟨nat_lit 42960, nat_lit 42960, nat_lit 42961⟩,
   ⟨nat_lit 42966, nat_lit 42968, nat_lit 42969⟩, ⟨nat_lit 42997, nat_lit 42997, nat_lit 42998⟩, ⟨nat_lit 43888, nat_lit 43967, nat_lit 5103⟩, ⟨nat_lit 65313, nat_lit 65338, nat_lit 65370⟩]
def lowTab : List CaseMapping :=
  [⟨nat_lit 65, nat_lit 90, nat_lit 122⟩, ⟨nat_lit 192, nat_lit 214, nat_lit 246⟩, ⟨nat_lit 216, nat_lit 222, nat_lit 254⟩, ⟨nat_lit 256, nat_lit 302, nat_lit 303⟩,
   ⟨nat_lit 304, nat_lit 304, nat_lit 105⟩, ⟨nat_lit 306, nat_lit 310, nat_lit 311⟩, ⟨nat_lit 313, nat_lit 327, nat_lit 328⟩, ⟨nat_lit 330, nat_lit 374, nat_lit 375⟩,
   ⟨nat_lit 376, nat_lit 376, nat_lit 255⟩, ⟨nat_lit 377, nat_lit 381, nat_lit 382⟩, ⟨nat_lit 385, nat_lit 385, nat_lit 595⟩, ⟨nat_lit 386, nat_lit 388, nat_lit 389⟩,
   ⟨nat_lit 390, nat_lit 390, nat_lit 596⟩, ⟨nat_lit 391, nat_lit 391, nat_lit 392⟩, ⟨nat_lit 393, nat_lit 394, nat_lit 599⟩, ⟨nat_lit 395, nat_lit 395, nat_lit 396⟩,
   ⟨nat_lit 398, nat_lit 398, nat_lit 477⟩, ⟨nat_lit 399, nat_lit 399, nat_lit 601⟩, ⟨nat_lit 400, nat_lit 400, nat_lit 603⟩, ⟨nat_lit 401, nat_lit 401, nat_lit 402⟩,
   ⟨nat_lit 403, nat_lit 403, nat_lit 608⟩, ⟨nat_lit 404, nat_lit 404, nat_lit 611⟩, ⟨nat_lit 406, nat_lit 406, nat_lit 617⟩, ⟨nat_lit 407, nat_lit 407, nat_lit 616⟩,
   ⟨nat_lit 408, nat_lit 408, nat_lit 409⟩, ⟨nat_lit 412, nat_lit 412, nat_lit 623⟩, ⟨nat_lit 413, nat_lit 413, nat_lit 626⟩, ⟨nat_lit 415, nat_lit 415, nat_lit 629⟩,
   ⟨nat_lit 416, nat_lit 420, nat_lit 421⟩, ⟨nat_lit 422, nat_lit 422, nat_lit 640⟩, ⟨nat_lit 423, nat_lit 423, nat_lit 424⟩, ⟨nat_lit 425, nat_lit 425, nat_lit 643⟩,
   ⟨nat_lit 428, nat_lit 428, nat_lit 429⟩, ⟨nat_lit 430, nat_lit 430, nat_lit 648⟩, ⟨nat_lit 431, nat_lit 431, nat_lit 432⟩, ⟨nat_lit 433, nat_lit 434, nat_lit 651⟩,
   ⟨nat_lit 435, nat_lit 437, nat_lit 438⟩, ⟨nat_lit 439, nat_lit 439, nat_lit 658⟩, ⟨nat_lit 440, nat_lit 440, nat_lit 441⟩, ⟨nat_lit 444, nat_lit 444, nat_lit 445⟩,
   ⟨nat_lit 452, nat_lit 452, nat_lit 454⟩, ⟨nat_lit 455, nat_lit 455, nat_lit 457⟩, ⟨nat_lit 458, nat_lit 458, nat_lit 460⟩, ⟨nat_lit 461, nat_lit 475, nat_lit 476⟩,
   ⟨nat_lit 478, nat_lit 494, nat_lit 495⟩, ⟨nat_lit 497, nat_lit 497, nat_lit 499⟩, ⟨nat_lit 500, nat_lit 500, nat_lit 501⟩, ⟨nat_lit 502, nat_lit 502, nat_lit 405⟩,
   ⟨nat_lit 503, nat_lit 503, nat_lit 447⟩, ⟨nat_lit 504, nat_lit 542, nat_lit 543⟩, ⟨nat_lit 544, nat_lit 544, nat_lit 414⟩, ⟨nat_lit 546, nat_lit 562, nat_lit 563⟩,
   ⟨nat_lit 570, nat_lit 570, nat_lit 11365⟩, ⟨nat_lit 571, nat_lit 571, nat_lit 572⟩, ⟨nat_lit 573, nat_lit 573, nat_lit 410⟩, ⟨nat_lit 574, nat_lit 574, nat_lit 11366⟩,
   ⟨nat_lit 577, nat_lit 577, nat_lit 578⟩, ⟨nat_lit 579, nat_lit 579, nat_lit 384⟩, ⟨nat_lit 580, nat_lit 580, nat_lit 649⟩, ⟨nat_lit 581, nat_lit 581, nat_lit 652⟩,
   ⟨nat_lit 582, nat_lit 590, nat_lit 591⟩, ⟨nat_lit 880, nat_lit 882, nat_lit 883⟩, ⟨nat_lit 886, nat_lit 886, nat_lit 887⟩, ⟨nat_lit 895, nat_lit 895, nat_lit 1011⟩,
   ⟨nat_lit 902, nat_lit 902, nat_lit 940⟩, ⟨nat_lit 904, nat_lit 906, nat_lit 943⟩, ⟨nat_lit 908, nat_lit 908, nat_lit 972⟩, ⟨nat_lit 910, nat_lit 911, nat_lit 974⟩,
   ⟨nat_lit 913, nat_lit 929, nat_lit 961⟩, ⟨nat_lit 931, nat_lit 939, nat_lit 971⟩, ⟨nat_lit 975, nat_lit 975, nat_lit 983⟩, ⟨nat_lit 984, nat_lit 1006, nat_lit 1007⟩,
   ⟨nat_lit 1012, nat_lit 1012, nat_lit 952⟩, ⟨nat_lit 1015, nat_lit 1015, nat_lit 1016⟩, ⟨nat_lit 1017, nat_lit 1017, nat_lit 1010⟩, ⟨nat_lit 1018, nat_lit 1018, nat_lit 1019⟩,
   ⟨nat_lit 1021, nat_lit 1023, nat_lit 893⟩, ⟨nat_lit 1024, nat_lit 1039, nat_lit 1119⟩, ⟨nat_lit 1040, nat_lit 1071, nat_lit 1103⟩, ⟨nat_lit 1120, nat_lit 1152, nat_lit 1153⟩,
   ⟨nat_lit 1162, nat_lit 1214, nat_lit 1215⟩, ⟨nat_lit 1216, nat_lit 1216, nat_lit 1231⟩, ⟨nat_lit 1217, nat_lit 1229, nat_lit 1230⟩, ⟨nat_lit 1232, nat_lit 1326, nat_lit 1327⟩,
   ⟨nat_lit 1329, nat_lit 1366, nat_lit 1414⟩, ⟨nat_lit 4256, nat_lit 4293, nat_lit 11557⟩, ⟨nat_lit 4295, nat_lit 4295, nat_lit 11559⟩, ⟨nat_lit 4301, nat_lit 4301, nat_lit 11565⟩,
   ⟨nat_lit 5024, nat_lit 5103, nat_lit 43967⟩, ⟨nat_lit 5104, nat_lit 5109, nat_lit 5117⟩, ⟨nat_lit 7312, nat_lit 7354, nat_lit 4346⟩, ⟨nat_lit 7357, nat_lit 7359, nat_lit 4351⟩,
   ⟨nat_lit 7680, nat_lit 7828, nat_lit 7829⟩, ⟨nat_lit 7838, nat_lit 7838, nat_lit 223⟩, ⟨nat_lit 7840, nat_lit 7934, nat_lit 7935⟩, ⟨nat_lit 7944, nat_lit 7951, nat_lit 7943⟩,
   ⟨nat_lit 7960, nat_lit 7965, nat_lit 7957⟩, ⟨nat_lit 7976, nat_lit 7983, nat_lit 7975⟩, ⟨nat_lit 7992, nat_lit 7999, nat_lit 7991⟩, ⟨nat_lit 8008, nat_lit 8013, nat_lit 8005⟩,
   ⟨nat_lit 8025, nat_lit 8031, nat_lit 8023⟩, ⟨nat_lit 8040, nat_lit 8047, nat_lit 8039⟩, ⟨nat_lit 8120, nat_lit 8121, nat_lit 8113⟩, ⟨nat_lit 8122, nat_lit 8123, nat_lit 8049⟩,
   ⟨nat_lit 8136, nat_lit 8139, nat_lit 8053⟩, ⟨nat_lit 8152, nat_lit 8153, nat_lit 8145⟩, ⟨nat_lit 8154, nat_lit 8155, nat_lit 8055⟩, ⟨nat_lit 8168, nat_lit 8169, nat_lit 8161⟩,
   ⟨nat_lit 8170, nat_lit 8171, nat_lit 8059⟩, ⟨nat_lit 8172, nat_lit 8172, nat_lit 8165⟩, ⟨nat_lit 8184, nat_lit 8185, nat_lit 8057⟩, ⟨nat_lit 8186, nat_lit 8187, nat_lit 8061⟩,
   ⟨nat_lit 8486, nat_lit 8486, nat_lit 969⟩, ⟨nat_lit 8490, nat_lit 8490, nat_lit 107⟩, ⟨nat_lit 8491, nat_lit 8491, nat_lit 229⟩, ⟨nat_lit 8498, nat_lit 8498, nat_lit 8526⟩,
   ⟨nat_lit 8579, nat_lit 8579, nat_lit 8580⟩, ⟨nat_lit 11264, nat_lit 11311, nat_lit 11359⟩, ⟨nat_lit 11360, nat_lit 11360, nat_lit 11361⟩, ⟨nat_lit 11362, nat_lit 11362, nat_lit 619⟩,
   ⟨nat_lit 11363, nat_lit 11363, nat_lit 7549⟩, ⟨nat_lit 11364, nat_lit 11364, nat_lit 637⟩, ⟨nat_lit 11367, nat_lit 11371, nat_lit 11372⟩, ⟨nat_lit 11373, nat_lit 11373, nat_lit 593⟩,
   ⟨nat_lit 11374, nat_lit 11374, nat_lit 625⟩, ⟨nat_lit 11375, nat_lit 11375, nat_lit 592⟩, ⟨nat_lit 11376, nat_lit 11376, nat_lit 594⟩, ⟨nat_lit 11378, nat_lit 11378, nat_lit 11379⟩,
   ⟨nat_lit 11381, nat_lit 11381, nat_lit 11382⟩, ⟨nat_lit 11390, nat_lit 11391, nat_lit 576⟩, ⟨nat_lit 11392, nat_lit 11490, nat_lit 11491⟩, ⟨nat_lit 11499, nat_lit 11501, nat_lit 11502⟩,
   ⟨nat_lit 11506, nat_lit 11506, nat_lit 11507⟩, ⟨nat_lit 42560, nat_lit 42604, nat_lit 42605⟩, ⟨nat_lit 42624, nat_lit 42650, nat_lit 42651⟩, ⟨nat_lit 42786, nat_lit 42798, nat_lit 42799⟩,
   ⟨nat_lit 42802, nat_lit 42862, nat_lit 42863⟩, ⟨nat_lit 42873, nat_lit 42875, nat_lit 42876⟩, ⟨nat_lit 42877, nat_lit 42877, nat_lit 7545⟩, ⟨nat_lit 42878, nat_lit 42886, nat_lit 42887⟩,
   ⟨nat_lit 42891, nat_lit 42891, nat_lit 42892⟩, ⟨nat_lit 42893, nat_lit 42893, nat_lit 613⟩, ⟨nat_lit 42896, nat_lit 42898, nat_lit 42899⟩, ⟨nat_lit 42902, nat_lit 42920, nat_lit 42921⟩,
   ⟨nat_lit 42922, nat_lit 42922, nat_lit 614⟩, ⟨nat_lit 42923, nat_lit 42923, nat_lit 604⟩, ⟨nat_lit 42924, nat_lit 42924, nat_lit 609⟩, ⟨nat_lit 42925, nat_lit 42925, nat_lit 620⟩,
   ⟨nat_lit 42926, nat_lit 42926, nat_lit 618⟩, ⟨nat_lit 42928, nat_lit 42928, nat_lit 670⟩, ⟨nat_lit 42929, nat_lit 42929, nat_lit 647⟩, ⟨nat_lit 42930, nat_lit 42930, nat_lit 669⟩,
   ⟨nat_lit 42931, nat_lit 42931, nat_lit 43859⟩, ⟨nat_lit 42932, nat_lit 42946, nat_lit 42947⟩, ⟨nat_lit 42948, nat_lit 42948, nat_lit 42900⟩, ⟨nat_lit 42949, nat_lit 42949, nat_lit 642⟩,
   ⟨nat_lit 42950, nat_lit 42950, nat_lit 7566⟩, ⟨nat_lit 42951, nat_lit 42953, nat_lit 42954⟩, ⟨nat_lit 42960, nat_lit 42960, nat_lit 42961⟩, ⟨nat_lit 42966, nat_lit 42968, nat_lit 42969⟩,
   ⟨nat_lit 42997, nat_lit 42997, nat_lit 42998⟩, ⟨nat_lit 65313, nat_lit 65338, nat_lit 65370⟩]
def upTab : List CaseMapping :=
  [⟨nat_lit 65, nat_lit 90, nat_lit 122⟩, ⟨nat_lit 924, nat_lit 924, nat_lit 181⟩, ⟨nat_lit 7838, nat_lit 7838, nat_lit 223⟩, ⟨nat_lit 192, nat_lit 214, nat_lit 246⟩,
   ⟨nat_lit 216, nat_lit 222, nat_lit 254⟩, ⟨nat_lit 376, nat_lit 376, nat_lit 255⟩, ⟨nat_lit 256, nat_lit 302, nat_lit 303⟩, ⟨nat_lit 73, nat_lit 73, nat_lit 305⟩,
   ⟨nat_lit 306, nat_lit 310, nat_lit 311⟩, ⟨nat_lit 313, nat_lit 327, nat_lit 328⟩, ⟨nat_lit 330, nat_lit 374, nat_lit 375⟩, ⟨nat_lit 377, nat_lit 381, nat_lit 382⟩,
   ⟨nat_lit 83, nat_lit 83, nat_lit 383⟩, ⟨nat_lit 579, nat_lit 579, nat_lit 384⟩, ⟨nat_lit 386, nat_lit 388, nat_lit 389⟩, ⟨nat_lit 391, nat_lit 391, nat_lit 392⟩,
   ⟨nat_lit 395, nat_lit 395, nat_lit 396⟩, ⟨nat_lit 401, nat_lit 401, nat_lit 402⟩, ⟨nat_lit 502, nat_lit 502, nat_lit 405⟩, ⟨nat_lit 408, nat_lit 408, nat_lit 409⟩,
   ⟨nat_lit 573, nat_lit 573, nat_lit 410⟩, ⟨nat_lit 544, nat_lit 544, nat_lit 414⟩, ⟨nat_lit 416, nat_lit 420, nat_lit 421⟩, ⟨nat_lit 423, nat_lit 423, nat_lit 424⟩,
   ⟨nat_lit 428, nat_lit 428, nat_lit 429⟩, ⟨nat_lit 431, nat_lit 431, nat_lit 432⟩, ⟨nat_lit 435, nat_lit 437, nat_lit 438⟩, ⟨nat_lit 440, nat_lit 440, nat_lit 441⟩,
   ⟨nat_lit 444, nat_lit 444, nat_lit 445⟩, ⟨nat_lit 503, nat_lit 503, nat_lit 447⟩, ⟨nat_lit 452, nat_lit 452, nat_lit 454⟩, ⟨nat_lit 455, nat_lit 455, nat_lit 457⟩,
   ⟨nat_lit 458, nat_lit 458, nat_lit 460⟩, ⟨nat_lit 461, nat_lit 475, nat_lit 476⟩, ⟨nat_lit 398, nat_lit 398, nat_lit 477⟩, ⟨nat_lit 478, nat_lit 494, nat_lit 495⟩,
   ⟨nat_lit 497, nat_lit 497, nat_lit 499⟩, ⟨nat_lit 500, nat_lit 500, nat_lit 501⟩, ⟨nat_lit 504, nat_lit 542, nat_lit 543⟩, ⟨nat_lit 546, nat_lit 562, nat_lit 563⟩,
   ⟨nat_lit 571, nat_lit 571, nat_lit 572⟩, ⟨nat_lit 11390, nat_lit 11391, nat_lit 576⟩, ⟨nat_lit 577, nat_lit 577, nat_lit 578⟩, ⟨nat_lit 582, nat_lit 590, nat_lit 591⟩,
   ⟨nat_lit 11375, nat_lit 11375, nat_lit 592⟩, ⟨nat_lit 11373, nat_lit 11373, nat_lit 593⟩, ⟨nat_lit 11376, nat_lit 11376, nat_lit 594⟩, ⟨nat_lit 385, nat_lit 385, nat_lit 595⟩,
   ⟨nat_lit 390, nat_lit 390, nat_lit 596⟩, ⟨nat_lit 393, nat_lit 394, nat_lit 599⟩, ⟨nat_lit 399, nat_lit 399, nat_lit 601⟩, ⟨nat_lit 400, nat_lit 400, nat_lit 603⟩,
   ⟨nat_lit 42923, nat_lit 42923, nat_lit 604⟩, ⟨nat_lit 403, nat_lit 403, nat_lit 608⟩, ⟨nat_lit 42924, nat_lit 42924, nat_lit 609⟩, ⟨nat_lit 404, nat_lit 404, nat_lit 611⟩,
   ⟨nat_lit 42893, nat_lit 42893, nat_lit 613⟩, ⟨nat_lit 42922, nat_lit 42922, nat_lit 614⟩, ⟨nat_lit 407, nat_lit 407, nat_lit 616⟩, ⟨nat_lit 406, nat_lit 406, nat_lit 617⟩,
   ⟨nat_lit 42926, nat_lit 42926, nat_lit 618⟩, ⟨nat_lit 11362, nat_lit 11362, nat_lit 619⟩, ⟨nat_lit 42925, nat_lit 42925, nat_lit 620⟩, ⟨nat_lit 412, nat_lit 412, nat_lit 623⟩,
   ⟨nat_lit 11374, nat_lit 11374, nat_lit 625⟩, ⟨nat_lit 413, nat_lit 413, nat_lit 626⟩, ⟨nat_lit 415, nat_lit 415, nat_lit 629⟩, ⟨nat_lit 11364, nat_lit 11364, nat_lit 637⟩,
   ⟨nat_lit 422, nat_lit 422, nat_lit 640⟩, ⟨nat_lit 42949, nat_lit 42949, nat_lit 642⟩, ⟨nat_lit 425, nat_lit 425, nat_lit 643⟩, ⟨nat_lit 42929, nat_lit 42929, nat_lit 647⟩,
   ⟨nat_lit 430, nat_lit 430, nat_lit 648⟩, ⟨nat_lit 580, nat_lit 580, nat_lit 649⟩, ⟨nat_lit 433, nat_lit 434, nat_lit 651⟩, ⟨nat_lit 581, nat_lit 581, nat_lit 652⟩,
   ⟨nat_lit 439, nat_lit 439, nat_lit 658⟩, ⟨nat_lit 42930, nat_lit 42930, nat_lit 669⟩, ⟨nat_lit 42928, nat_lit 42928, nat_lit 670⟩, ⟨nat_lit 880, nat_lit 882, nat_lit 883⟩,
   ⟨nat_lit 886, nat_lit 886, nat_lit 887⟩, ⟨nat_lit 1021, nat_lit 1023, nat_lit 893⟩, ⟨nat_lit 902, nat_lit 902, nat_lit 940⟩, ⟨nat_lit 904, nat_lit 906, nat_lit 943⟩,
   ⟨nat_lit 913, nat_lit 929, nat_lit 961⟩, ⟨nat_lit 931, nat_lit 931, nat_lit 962⟩, ⟨nat_lit 931, nat_lit 939, nat_lit 971⟩, ⟨nat_lit 908, nat_lit 908, nat_lit 972⟩,
   ⟨nat_lit 910, nat_lit 911, nat_lit 974⟩, ⟨nat_lit 914, nat_lit 914, nat_lit 976⟩, ⟨nat_lit 920, nat_lit 920, nat_lit 977⟩, ⟨nat_lit 934, nat_lit 934, nat_lit 981⟩,
   ⟨nat_lit 928, nat_lit 928, nat_lit 982⟩, ⟨nat_lit 975, nat_lit 975, nat_lit 983⟩, ⟨nat_lit 984, nat_lit 1006, nat_lit 1007⟩, ⟨nat_lit 922, nat_lit 922, nat_lit 1008⟩,
   ⟨nat_lit 929, nat_lit 929, nat_lit 1009⟩, ⟨nat_lit 1017, nat_lit 1017, nat_lit 1010⟩, ⟨nat_lit 895, nat_lit 895, nat_lit 1011⟩, ⟨nat_lit 917, nat_lit 917, nat_lit 1013⟩,
   ⟨nat_lit 1015, nat_lit 1015, nat_lit 1016⟩, ⟨nat_lit 1018, nat_lit 1018, nat_lit 1019⟩, ⟨nat_lit 1040, nat_lit 1071, nat_lit 1103⟩, ⟨nat_lit 1024, nat_lit 1039, nat_lit 1119⟩,
   ⟨nat_lit 1120, nat_lit 1152, nat_lit 1153⟩, ⟨nat_lit 1162, nat_lit 1214, nat_lit 1215⟩, ⟨nat_lit 1217, nat_lit 1229, nat_lit 1230⟩, ⟨nat_lit 1216, nat_lit 1216, nat_lit 1231⟩,
   ⟨nat_lit 1232, nat_lit 1326, nat_lit 1327⟩, ⟨nat_lit 1329, nat_lit 1366, nat_lit 1414⟩, ⟨nat_lit 7312, nat_lit 7354, nat_lit 4346⟩, ⟨nat_lit 7357, nat_lit 7359, nat_lit 4351⟩,
   ⟨nat_lit 5104, nat_lit 5109, nat_lit 5117⟩, ⟨nat_lit 1042, nat_lit 1042, nat_lit 7296⟩, ⟨nat_lit 1044, nat_lit 1044, nat_lit 7297⟩, ⟨nat_lit 1054, nat_lit 1054, nat_lit 7298⟩,
   ⟨nat_lit 1057, nat_lit 1058, nat_lit 7300⟩, ⟨nat_lit 1058, nat_lit 1058, nat_lit 7301⟩, ⟨nat_lit 1066, nat_lit 1066, nat_lit 7302⟩, ⟨nat_lit 1122, nat_lit 1122, nat_lit 7303⟩,
   ⟨nat_lit 42570, nat_lit 42570, nat_lit 7304⟩, ⟨nat_lit 42877, nat_lit 42877, nat_lit 7545⟩, ⟨nat_lit 11363, nat_lit 11363, nat_lit 7549⟩, ⟨nat_lit 42950, nat_lit 42950, nat_lit 7566⟩,
   ⟨nat_lit 7680, nat_lit 7828, nat_lit 7829⟩, ⟨nat_lit 7776, nat_lit 7776, nat_lit 7835⟩, ⟨nat_lit 7840, nat_lit 7934, nat_lit 7935⟩, ⟨nat_lit 7944, nat_lit 7951, nat_lit 7943⟩,
   ⟨nat_lit 7960, nat_lit 7965, nat_lit 7957⟩, ⟨nat_lit 7976, nat_lit 7983, nat_lit 7975⟩, ⟨nat_lit 7992, nat_lit 7999, nat_lit 7991⟩, ⟨nat_lit 8008, nat_lit 8013, nat_lit 8005⟩,
   ⟨nat_lit 8025, nat_lit 8031, nat_lit 8023⟩, ⟨nat_lit 8040, nat_lit 8047, nat_lit 8039⟩, ⟨nat_lit 8122, nat_lit 8123, nat_lit 8049⟩, ⟨nat_lit 8136, nat_lit 8139, nat_lit 8053⟩,
   ⟨nat_lit 8154, nat_lit 8155, nat_lit 8055⟩, ⟨nat_lit 8184, nat_lit 8185, nat_lit 8057⟩, ⟨nat_lit 8170, nat_lit 8171, nat_lit 8059⟩, ⟨nat_lit 8186, nat_lit 8187, nat_lit 8061⟩,
   ⟨nat_lit 8072, nat_lit 8079, nat_lit 8071⟩, ⟨nat_lit 8088, nat_lit 8095, nat_lit 8087⟩, ⟨nat_lit 8104, nat_lit 8111, nat_lit 8103⟩, ⟨nat_lit 8120, nat_lit 8121, nat_lit 8113⟩,
   ⟨nat_lit 8124, nat_lit 8124, nat_lit 8115⟩, ⟨nat_lit 921, nat_lit 921, nat_lit 8126⟩, ⟨nat_lit 8140, nat_lit 8140, nat_lit 8131⟩, ⟨nat_lit 8152, nat_lit 8153, nat_lit 8145⟩,
   ⟨nat_lit 8168, nat_lit 8169, nat_lit 8161⟩, ⟨nat_lit 8172, nat_lit 8172, nat_lit 8165⟩, ⟨nat_lit 8188, nat_lit 8188, nat_lit 8179⟩, ⟨nat_lit 8498, nat_lit 8498, nat_lit 8526⟩,
   ⟨nat_lit 8579, nat_lit 8579, nat_lit 8580⟩, ⟨nat_lit 11264, nat_lit 11311, nat_lit 11359⟩, ⟨nat_lit 11360, nat_lit 11360, nat_lit 11361⟩, ⟨nat_lit 570, nat_lit 570, nat_lit 11365⟩,
   ⟨nat_lit 574, nat_lit 574, nat_lit 11366⟩, ⟨nat_lit 11367, nat_lit 11371, nat_lit 11372⟩, ⟨nat_lit 11378, nat_lit 11378, nat_lit 11379⟩, ⟨nat_lit 11381, nat_lit 11381, nat_lit 11382⟩,
   ⟨nat_lit 11392, nat_lit 11490, nat_lit 11491⟩, ⟨nat_lit 11499, nat_lit 11501, nat_lit 11502⟩, ⟨nat_lit 11506, nat_lit 11506, nat_lit 11507⟩, ⟨nat_lit 4256, nat_lit 4293, nat_lit 11557⟩,
   ⟨nat_lit 4295, nat_lit 4295, nat_lit 11559⟩, ⟨nat_lit 4301, nat_lit 4301, nat_lit 11565⟩, ⟨nat_lit 42560, nat_lit 42604, nat_lit 42605⟩, ⟨nat_lit 42624, nat_lit 42650, nat_lit 42651⟩,
   ⟨nat_lit 42786, nat_lit 42798, nat_lit 42799⟩, ⟨nat_lit 42802, nat_lit 42862, nat_lit 42863⟩, ⟨nat_lit 42873, nat_lit 42875, nat_lit 42876⟩, ⟨nat_lit 42878, nat_lit 42886, nat_lit 42887⟩,
   ⟨nat_lit 42891, nat_lit 42891, nat_lit 42892⟩, ⟨nat_lit 42896, nat_lit 42898, nat_lit 42899⟩, ⟨nat_lit 42948, nat_lit 42948, nat_lit 42900⟩, ⟨nat_lit 42902, nat_lit 42920, nat_lit 42921⟩,
   ⟨nat_lit 42932, nat_lit 42946, nat_lit 42947⟩, ⟨nat_lit 42951, nat_lit 42953, nat_lit 42954⟩, ⟨nat_lit 42960, nat_lit 42960, nat_lit 42961⟩, ⟨nat_lit 42966, nat_lit 42968, nat_lit 42969⟩,
   ⟨nat_lit 42997, nat_lit 42997, nat_lit 42998⟩, ⟨nat_lit 42931, nat_lit 42931, nat_lit 43859⟩, ⟨nat_lit 5024, nat_lit 5103, nat_lit 43967⟩, ⟨nat_lit 65313, nat_lit 65338, nat_lit 65370⟩]

theorem foldTab_eq : casemappings.take casefoldLen = foldTab := by decide +kernel
theorem lowTab_eq : select upcaseInd = lowTab := by decide +kernel
theorem upTab_eq : select lowcaseInd = upTab := by decide +kernel

noncomputable def chkFold (c : Nat) : Bool :=
  let x := foldLoopB c foldTab
  Nat.beq (foldLoopB x foldTab) x && (scalarB x && (Nat.blt 0 x && Nat.blt c 0x10000))

theorem tabFold : (points foldTab).all chkFold = true := by decide +kernel

noncomputable def chkLow (c : Nat) : Bool :=
  let x := foldLoopB c lowTab
  Nat.beq (foldLoopB x lowTab) x && (scalarB x && (Nat.blt 0 x && (Nat.blt c 0x10000 &&
    (Nat.ble (encLen x * 2) (encLen c * 3) &&
     (Nat.beq c 0x130 || Nat.beq (foldLoopB x foldTab) (foldLoopB c foldTab))))))

theorem tabLow : (points lowTab).all chkLow = true := by decide +kernel

noncomputable def chkUp (c : Nat) : Bool :=
  let x := upperLoopB c upTab
  Nat.beq (upperLoopB x upTab) x && (scalarB x && (Nat.blt 0 x && (Nat.blt c 0x10000 &&
    (Nat.ble (encLen x * 2) (encLen c * 3) &&
     (Nat.beq c 0x131 || Nat.beq (foldLoopB x foldTab) (foldLoopB c foldTab))))))

theorem tabUp : (upPoints upTab).all chkUp = true := by decide +kernel

theorem upTab_wf : ∀ e ∈ upTab, e.c1 ≤ e.c2 ∧ e.c2 ≤ e.c1 + e.m2 := by decide +kernel

theorem casefold_eq (c : Nat) : casefold c = foldLoop c foldTab := by rw [casefold, foldTab_eq]
theorem tolower_eq (c : Nat) : tolower c = foldLoop c lowTab := by rw [tolower, lowTab_eq]
theorem toupper_eq (c : Nat) : toupper c = upperLoop c upTab := by rw [toupper, upTab_eq]

theorem casefold_facts (c : Nat) :
    casefold c = c ∨
    (casefold (casefold c) = casefold c ∧ Scalar (casefold c) ∧ casefold c ≠ 0 ∧ c < 0x10000) := by
  simp only [casefold_eq]
  by_cases h : c ∈ points foldTab
  · right
    have := List.all_eq_true.1 tabFold c h
    simp only [chkFold, Bool.and_eq_true, foldLoopB_eq] at this
    obtain ⟨h1, h2, h3, h4⟩ := this
    exact ⟨Nat.eq_of_beq_eq_true h1, scalarB_eq _ h2, Nat.pos_iff_ne_zero.1 (Nat.le_of_ble_eq_true h3),
      Nat.le_of_ble_eq_true h4⟩
  · exact Or.inl (foldLoop_out c _ h)

theorem tolower_facts (c : Nat) :
    tolower c = c ∨
    (tolower (tolower c) = tolower c ∧ Scalar (tolower c) ∧ tolower c ≠ 0 ∧ c < 0x10000 ∧
      (enc (tolower c)).length * 2 ≤ (enc c).length * 3 ∧ (c ≠ 0x130 → casefold (tolower c) = casefold c)) := by
  simp only [casefold_eq, tolower_eq]
  by_cases h : c ∈ points lowTab
  · right
    have := List.all_eq_true.1 tabLow c h
    simp only [chkLow, Bool.and_eq_true, foldLoopB_eq, Bool.or_eq_true] at this
    obtain ⟨h1, h2, h3, h4, h5, h6⟩ := this
    refine ⟨Nat.eq_of_beq_eq_true h1, scalarB_eq _ h2, Nat.pos_iff_ne_zero.1 (Nat.le_of_ble_eq_true h3),
      Nat.le_of_ble_eq_true h4, ?_, fun hc => ?_⟩
    · rw [encLen_eq, encLen_eq]; exact Nat.le_of_ble_eq_true h5
    · rcases h6 with h6 | h6
      · exact absurd (Nat.eq_of_beq_eq_true h6) hc
      · exact Nat.eq_of_beq_eq_true h6
  · exact Or.inl (foldLoop_out c _ h)

theorem toupper_facts (c : Nat) :
    toupper c = c ∨
    (toupper (toupper c) = toupper c ∧ Scalar (toupper c) ∧ toupper c ≠ 0 ∧ c < 0x10000 ∧
      (enc (toupper c)).length * 2 ≤ (enc c).length * 3 ∧ (c ≠ 0x131 → casefold (toupper c) = casefold c)) := by
  simp only [casefold_eq, toupper_eq]
  by_cases h : c ∈ upPoints upTab
  · right
    have := List.all_eq_true.1 tabUp c h
    simp only [chkUp, Bool.and_eq_true, foldLoopB_eq, upperLoopB_eq, Bool.or_eq_true] at this
    obtain ⟨h1, h2, h3, h4, h5, h6⟩ := this
    refine ⟨Nat.eq_of_beq_eq_true h1, scalarB_eq _ h2, Nat.pos_iff_ne_zero.1 (Nat.le_of_ble_eq_true h3),
      Nat.le_of_ble_eq_true h4, ?_, fun hc => ?_⟩
    · rw [encLen_eq, encLen_eq]; exact Nat.le_of_ble_eq_true h5
    · rcases h6 with h6 | h6
      · exact absurd (Nat.eq_of_beq_eq_true h6) hc
      · exact Nat.eq_of_beq_eq_true h6
  · exact Or.inl (upperLoop_out c _ upTab_wf h)

/-- ASCII behaves as in C's `tolower`/`toupper`. -/
theorem ascii_tab : ∀ c < 128,
    casefold c = (if 65 ≤ c ∧ c ≤ 90 then c + 32 else c) ∧
    tolower c = (if 65 ≤ c ∧ c ≤ 90 then c + 32 else c) ∧
    toupper c = (if 97 ≤ c ∧ c ≤ 122 then c - 32 else c) := by decide +kernel

end Verif.Utf8
