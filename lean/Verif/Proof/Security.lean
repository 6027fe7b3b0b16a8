import Verif.Model.Security
import Mathlib.Tactic.Ring
import Mathlib.Tactic.Linarith
import Mathlib.Tactic.Positivity
/-! Polynomial inequalities for C115, by Bernstein expansion over the box of dimensions and levels. -/
namespace Spf.Stats
set_option maxHeartbeats 4000000

theorem sec_level_b0 (s t : ℚ) (h0 : 78 ≤ s) (h0' : s ≤ 130) (h1 : 78 ≤ t) (h1' : t ≤ 130) : (3 / 125) ≤ (2130561597613223383 / 6103515625000000000) + (-2010714197137604101 / 610351562500000000000) * t + (1500712752758551 / 97656250000000000000) * t ^ 2 + (-4396263607987 / 156250000000000000000) * t ^ 3 + (-2010714197137604101 / 610351562500000000000) * s + (1500712752758551 / 97656250000000000000) * s * t + (-4396263607987 / 156250000000000000000) * s * t ^ 2 + (1500712752758551 / 97656250000000000000) * s ^ 2 + (-4396263607987 / 156250000000000000000) * s ^ 2 * t + (-4396263607987 / 156250000000000000000) * s ^ 3 := by
  have a0 : 0 ≤ s - 78 := by linarith
  have b0 : 0 ≤ 130 - s := by linarith
  have a1 : 0 ≤ t - 78 := by linarith
  have b1 : 0 ≤ 130 - t := by linarith
  have hE : (2130561597613223383 / 6103515625000000000) + (-2010714197137604101 / 610351562500000000000) * t + (1500712752758551 / 97656250000000000000) * t ^ 2 + (-4396263607987 / 156250000000000000000) * t ^ 3 + (-2010714197137604101 / 610351562500000000000) * s + (1500712752758551 / 97656250000000000000) * s * t + (-4396263607987 / 156250000000000000000) * s * t ^ 2 + (1500712752758551 / 97656250000000000000) * s ^ 2 + (-4396263607987 / 156250000000000000000) * s ^ 2 * t + (-4396263607987 / 156250000000000000000) * s ^ 3 - (3 / 125) = (5833092414628799311 / 3016755625000000000000000000000) * (130 - s) ^ 3 * (130 - t) ^ 3
      + (9394286090281075081 / 2413404500000000000000000000000) * (130 - s) ^ 3 * (t - 78) ^ 1 * (130 - t) ^ 2
      + (17409955364381756239 / 6033511250000000000000000000000) * (130 - s) ^ 3 * (t - 78) ^ 2 * (130 - t) ^ 1
      + (8766202149186474567 / 12067022500000000000000000000000) * (130 - s) ^ 3 * (t - 78) ^ 3
      + (9394286090281075081 / 2413404500000000000000000000000) * (s - 78) ^ 1 * (130 - s) ^ 2 * (130 - t) ^ 3
      + (41355707291646915317 / 6033511250000000000000000000000) * (s - 78) ^ 1 * (130 - s) ^ 2 * (t - 78) ^ 1 * (130 - t) ^ 2
      + (54716366430179735503 / 12067022500000000000000000000000) * (s - 78) ^ 1 * (130 - s) ^ 2 * (t - 78) ^ 2 * (130 - t) ^ 1
      + (366638716819709407 / 377094453125000000000000000000) * (s - 78) ^ 1 * (130 - s) ^ 2 * (t - 78) ^ 3
      + (17409955364381756239 / 6033511250000000000000000000000) * (s - 78) ^ 2 * (130 - s) ^ 1 * (130 - t) ^ 3
      + (54716366430179735503 / 12067022500000000000000000000000) * (s - 78) ^ 2 * (130 - s) ^ 1 * (t - 78) ^ 1 * (130 - t) ^ 2
      + (1023943172037196071 / 377094453125000000000000000000) * (s - 78) ^ 2 * (130 - s) ^ 1 * (t - 78) ^ 2 * (130 - t) ^ 1
      + (5625782443713471997 / 12067022500000000000000000000000) * (s - 78) ^ 2 * (130 - s) ^ 1 * (t - 78) ^ 3
      + (8766202149186474567 / 12067022500000000000000000000000) * (s - 78) ^ 3 * (130 - t) ^ 3
      + (366638716819709407 / 377094453125000000000000000000) * (s - 78) ^ 3 * (t - 78) ^ 1 * (130 - t) ^ 2
      + (5625782443713471997 / 12067022500000000000000000000000) * (s - 78) ^ 3 * (t - 78) ^ 2 * (130 - t) ^ 1
      + (24489786798238579 / 1206702250000000000000000000000) * (s - 78) ^ 3 * (t - 78) ^ 3 := by ring
  have p : 0 ≤ (5833092414628799311 / 3016755625000000000000000000000) * (130 - s) ^ 3 * (130 - t) ^ 3
      + (9394286090281075081 / 2413404500000000000000000000000) * (130 - s) ^ 3 * (t - 78) ^ 1 * (130 - t) ^ 2
      + (17409955364381756239 / 6033511250000000000000000000000) * (130 - s) ^ 3 * (t - 78) ^ 2 * (130 - t) ^ 1
      + (8766202149186474567 / 12067022500000000000000000000000) * (130 - s) ^ 3 * (t - 78) ^ 3
      + (9394286090281075081 / 2413404500000000000000000000000) * (s - 78) ^ 1 * (130 - s) ^ 2 * (130 - t) ^ 3
      + (41355707291646915317 / 6033511250000000000000000000000) * (s - 78) ^ 1 * (130 - s) ^ 2 * (t - 78) ^ 1 * (130 - t) ^ 2
      + (54716366430179735503 / 12067022500000000000000000000000) * (s - 78) ^ 1 * (130 - s) ^ 2 * (t - 78) ^ 2 * (130 - t) ^ 1
      + (366638716819709407 / 377094453125000000000000000000) * (s - 78) ^ 1 * (130 - s) ^ 2 * (t - 78) ^ 3
      + (17409955364381756239 / 6033511250000000000000000000000) * (s - 78) ^ 2 * (130 - s) ^ 1 * (130 - t) ^ 3
      + (54716366430179735503 / 12067022500000000000000000000000) * (s - 78) ^ 2 * (130 - s) ^ 1 * (t - 78) ^ 1 * (130 - t) ^ 2
      + (1023943172037196071 / 377094453125000000000000000000) * (s - 78) ^ 2 * (130 - s) ^ 1 * (t - 78) ^ 2 * (130 - t) ^ 1
      + (5625782443713471997 / 12067022500000000000000000000000) * (s - 78) ^ 2 * (130 - s) ^ 1 * (t - 78) ^ 3
      + (8766202149186474567 / 12067022500000000000000000000000) * (s - 78) ^ 3 * (130 - t) ^ 3
      + (366638716819709407 / 377094453125000000000000000000) * (s - 78) ^ 3 * (t - 78) ^ 1 * (130 - t) ^ 2
      + (5625782443713471997 / 12067022500000000000000000000000) * (s - 78) ^ 3 * (t - 78) ^ 2 * (130 - t) ^ 1
      + (24489786798238579 / 1206702250000000000000000000000) * (s - 78) ^ 3 * (t - 78) ^ 3 := by positivity
  exact sub_nonneg.1 (le_of_le_of_eq p hE.symm)

theorem sec_level_b1 (s t : ℚ) (h0 : 78 ≤ s) (h0' : s ≤ 130) (h1 : 78 ≤ t) (h1' : t ≤ 130) : (3 / 125) ≤ (2660442070714455419 / 3051757812500000000) + (-2781158149901757743 / 305175781250000000000) * t + (1146944921648749 / 24414062500000000000) * t ^ 2 + (-14953154510797 / 156250000000000000000) * t ^ 3 + (-2781158149901757743 / 305175781250000000000) * s + (1146944921648749 / 24414062500000000000) * s * t + (-14953154510797 / 156250000000000000000) * s * t ^ 2 + (1146944921648749 / 24414062500000000000) * s ^ 2 + (-14953154510797 / 156250000000000000000) * s ^ 2 * t + (-14953154510797 / 156250000000000000000) * s ^ 3 := by
  have a0 : 0 ≤ s - 78 := by linarith
  have b0 : 0 ≤ 130 - s := by linarith
  have a1 : 0 ≤ t - 78 := by linarith
  have b1 : 0 ≤ 130 - t := by linarith
  have hE : (2660442070714455419 / 3051757812500000000) + (-2781158149901757743 / 305175781250000000000) * t + (1146944921648749 / 24414062500000000000) * t ^ 2 + (-14953154510797 / 156250000000000000000) * t ^ 3 + (-2781158149901757743 / 305175781250000000000) * s + (1146944921648749 / 24414062500000000000) * s * t + (-14953154510797 / 156250000000000000000) * s * t ^ 2 + (1146944921648749 / 24414062500000000000) * s ^ 2 + (-14953154510797 / 156250000000000000000) * s ^ 2 * t + (-14953154510797 / 156250000000000000000) * s ^ 3 - (3 / 125) = (62193830068620931309 / 12067022500000000000000000000000) * (130 - s) ^ 3 * (130 - t) ^ 3
      + (3384147905709588227 / 301675562500000000000000000000) * (130 - s) ^ 3 * (t - 78) ^ 1 * (130 - t) ^ 2
      + (112405698264028183133 / 12067022500000000000000000000000) * (130 - s) ^ 3 * (t - 78) ^ 2 * (130 - t) ^ 1
      + (3877573998651291639 / 1508377812500000000000000000000) * (130 - s) ^ 3 * (t - 78) ^ 3
      + (3384147905709588227 / 301675562500000000000000000000) * (s - 78) ^ 1 * (130 - s) ^ 2 * (130 - t) ^ 3
      + (280706382765836711599 / 12067022500000000000000000000000) * (s - 78) ^ 1 * (130 - s) ^ 2 * (t - 78) ^ 1 * (130 - t) ^ 2
      + (28983508096354917551 / 1508377812500000000000000000000) * (s - 78) ^ 1 * (130 - s) ^ 2 * (t - 78) ^ 2 * (130 - t) ^ 1
      + (61888537888220401139 / 12067022500000000000000000000000) * (s - 78) ^ 1 * (130 - s) ^ 2 * (t - 78) ^ 3
      + (112405698264028183133 / 12067022500000000000000000000000) * (s - 78) ^ 2 * (130 - s) ^ 1 * (130 - t) ^ 3
      + (28983508096354917551 / 1508377812500000000000000000000) * (s - 78) ^ 2 * (130 - s) ^ 1 * (t - 78) ^ 1 * (130 - t) ^ 2
      + (194859062558855383617 / 12067022500000000000000000000000) * (s - 78) ^ 2 * (130 - s) ^ 1 * (t - 78) ^ 2 * (130 - t) ^ 1
      + (6344704463359808699 / 1508377812500000000000000000000) * (s - 78) ^ 2 * (130 - s) ^ 1 * (t - 78) ^ 3
      + (3877573998651291639 / 1508377812500000000000000000000) * (s - 78) ^ 3 * (130 - t) ^ 3
      + (61888537888220401139 / 12067022500000000000000000000000) * (s - 78) ^ 3 * (t - 78) ^ 1 * (130 - t) ^ 2
      + (6344704463359808699 / 1508377812500000000000000000000) * (s - 78) ^ 3 * (t - 78) ^ 2 * (130 - t) ^ 1
      + (2335333938562629863 / 2413404500000000000000000000000) * (s - 78) ^ 3 * (t - 78) ^ 3 := by ring
  have p : 0 ≤ (62193830068620931309 / 12067022500000000000000000000000) * (130 - s) ^ 3 * (130 - t) ^ 3
      + (3384147905709588227 / 301675562500000000000000000000) * (130 - s) ^ 3 * (t - 78) ^ 1 * (130 - t) ^ 2
      + (112405698264028183133 / 12067022500000000000000000000000) * (130 - s) ^ 3 * (t - 78) ^ 2 * (130 - t) ^ 1
      + (3877573998651291639 / 1508377812500000000000000000000) * (130 - s) ^ 3 * (t - 78) ^ 3
      + (3384147905709588227 / 301675562500000000000000000000) * (s - 78) ^ 1 * (130 - s) ^ 2 * (130 - t) ^ 3
      + (280706382765836711599 / 12067022500000000000000000000000) * (s - 78) ^ 1 * (130 - s) ^ 2 * (t - 78) ^ 1 * (130 - t) ^ 2
      + (28983508096354917551 / 1508377812500000000000000000000) * (s - 78) ^ 1 * (130 - s) ^ 2 * (t - 78) ^ 2 * (130 - t) ^ 1
      + (61888537888220401139 / 12067022500000000000000000000000) * (s - 78) ^ 1 * (130 - s) ^ 2 * (t - 78) ^ 3
      + (112405698264028183133 / 12067022500000000000000000000000) * (s - 78) ^ 2 * (130 - s) ^ 1 * (130 - t) ^ 3
      + (28983508096354917551 / 1508377812500000000000000000000) * (s - 78) ^ 2 * (130 - s) ^ 1 * (t - 78) ^ 1 * (130 - t) ^ 2
      + (194859062558855383617 / 12067022500000000000000000000000) * (s - 78) ^ 2 * (130 - s) ^ 1 * (t - 78) ^ 2 * (130 - t) ^ 1
      + (6344704463359808699 / 1508377812500000000000000000000) * (s - 78) ^ 2 * (130 - s) ^ 1 * (t - 78) ^ 3
      + (3877573998651291639 / 1508377812500000000000000000000) * (s - 78) ^ 3 * (130 - t) ^ 3
      + (61888537888220401139 / 12067022500000000000000000000000) * (s - 78) ^ 3 * (t - 78) ^ 1 * (130 - t) ^ 2
      + (6344704463359808699 / 1508377812500000000000000000000) * (s - 78) ^ 3 * (t - 78) ^ 2 * (130 - t) ^ 1
      + (2335333938562629863 / 2413404500000000000000000000000) * (s - 78) ^ 3 * (t - 78) ^ 3 := by positivity
  exact sub_nonneg.1 (le_of_le_of_eq p hE.symm)

theorem sec_level_b2 (s t : ℚ) (h0 : 78 ≤ s) (h0' : s ≤ 130) (h1 : 78 ≤ t) (h1' : t ≤ 130) : (3 / 125) ≤ (8094395916950884093 / 6103515625000000000) + (-8355114309751369471 / 610351562500000000000) * t + (6760274179312741 / 97656250000000000000) * t ^ 2 + (-21502503351307 / 156250000000000000000) * t ^ 3 + (-8355114309751369471 / 610351562500000000000) * s + (6760274179312741 / 97656250000000000000) * s * t + (-21502503351307 / 156250000000000000000) * s * t ^ 2 + (6760274179312741 / 97656250000000000000) * s ^ 2 + (-21502503351307 / 156250000000000000000) * s ^ 2 * t + (-21502503351307 / 156250000000000000000) * s ^ 3 := by
  have a0 : 0 ≤ s - 78 := by linarith
  have b0 : 0 ≤ 130 - s := by linarith
  have a1 : 0 ≤ t - 78 := by linarith
  have b1 : 0 ≤ 130 - t := by linarith
  have hE : (8094395916950884093 / 6103515625000000000) + (-8355114309751369471 / 610351562500000000000) * t + (6760274179312741 / 97656250000000000000) * t ^ 2 + (-21502503351307 / 156250000000000000000) * t ^ 3 + (-8355114309751369471 / 610351562500000000000) * s + (6760274179312741 / 97656250000000000000) * s * t + (-21502503351307 / 156250000000000000000) * s * t ^ 2 + (6760274179312741 / 97656250000000000000) * s ^ 2 + (-21502503351307 / 156250000000000000000) * s ^ 2 * t + (-21502503351307 / 156250000000000000000) * s ^ 3 - (3 / 125) = (51566612170976604887 / 6033511250000000000000000000000) * (130 - s) ^ 3 * (130 - t) ^ 3
      + (45922841143699975651 / 2413404500000000000000000000000) * (130 - s) ^ 3 * (t - 78) ^ 1 * (130 - t) ^ 2
      + (48303968061823307897 / 3016755625000000000000000000000) * (130 - s) ^ 3 * (t - 78) ^ 2 * (130 - t) ^ 1
      + (54924640905041193357 / 12067022500000000000000000000000) * (130 - s) ^ 3 * (t - 78) ^ 3
      + (45922841143699975651 / 2413404500000000000000000000000) * (s - 78) ^ 1 * (130 - s) ^ 2 * (130 - t) ^ 3
      + (123218337267393371491 / 3016755625000000000000000000000) * (s - 78) ^ 1 * (130 - s) ^ 2 * (t - 78) ^ 1 * (130 - t) ^ 2
      + (415255232526401280613 / 12067022500000000000000000000000) * (s - 78) ^ 1 * (130 - s) ^ 2 * (t - 78) ^ 2 * (130 - t) ^ 1
      + (58282669639105781827 / 6033511250000000000000000000000) * (s - 78) ^ 1 * (130 - s) ^ 2 * (t - 78) ^ 3
      + (48303968061823307897 / 3016755625000000000000000000000) * (s - 78) ^ 2 * (130 - s) ^ 1 * (130 - t) ^ 3
      + (415255232526401280613 / 12067022500000000000000000000000) * (s - 78) ^ 2 * (130 - s) ^ 1 * (t - 78) ^ 1 * (130 - t) ^ 2
      + (178701874943985720081 / 6033511250000000000000000000000) * (s - 78) ^ 2 * (130 - s) ^ 1 * (t - 78) ^ 2 * (130 - t) ^ 1
      + (99933639711747281887 / 12067022500000000000000000000000) * (s - 78) ^ 2 * (130 - s) ^ 1 * (t - 78) ^ 3
      + (54924640905041193357 / 12067022500000000000000000000000) * (s - 78) ^ 3 * (130 - t) ^ 3
      + (58282669639105781827 / 6033511250000000000000000000000) * (s - 78) ^ 3 * (t - 78) ^ 1 * (130 - t) ^ 2
      + (99933639711747281887 / 12067022500000000000000000000000) * (s - 78) ^ 3 * (t - 78) ^ 2 * (130 - t) ^ 1
      + (331033642160894273 / 150837781250000000000000000000) * (s - 78) ^ 3 * (t - 78) ^ 3 := by ring
  have p : 0 ≤ (51566612170976604887 / 6033511250000000000000000000000) * (130 - s) ^ 3 * (130 - t) ^ 3
      + (45922841143699975651 / 2413404500000000000000000000000) * (130 - s) ^ 3 * (t - 78) ^ 1 * (130 - t) ^ 2
      + (48303968061823307897 / 3016755625000000000000000000000) * (130 - s) ^ 3 * (t - 78) ^ 2 * (130 - t) ^ 1
      + (54924640905041193357 / 12067022500000000000000000000000) * (130 - s) ^ 3 * (t - 78) ^ 3
      + (45922841143699975651 / 2413404500000000000000000000000) * (s - 78) ^ 1 * (130 - s) ^ 2 * (130 - t) ^ 3
      + (123218337267393371491 / 3016755625000000000000000000000) * (s - 78) ^ 1 * (130 - s) ^ 2 * (t - 78) ^ 1 * (130 - t) ^ 2
      + (415255232526401280613 / 12067022500000000000000000000000) * (s - 78) ^ 1 * (130 - s) ^ 2 * (t - 78) ^ 2 * (130 - t) ^ 1
      + (58282669639105781827 / 6033511250000000000000000000000) * (s - 78) ^ 1 * (130 - s) ^ 2 * (t - 78) ^ 3
      + (48303968061823307897 / 3016755625000000000000000000000) * (s - 78) ^ 2 * (130 - s) ^ 1 * (130 - t) ^ 3
      + (415255232526401280613 / 12067022500000000000000000000000) * (s - 78) ^ 2 * (130 - s) ^ 1 * (t - 78) ^ 1 * (130 - t) ^ 2
      + (178701874943985720081 / 6033511250000000000000000000000) * (s - 78) ^ 2 * (130 - s) ^ 1 * (t - 78) ^ 2 * (130 - t) ^ 1
      + (99933639711747281887 / 12067022500000000000000000000000) * (s - 78) ^ 2 * (130 - s) ^ 1 * (t - 78) ^ 3
      + (54924640905041193357 / 12067022500000000000000000000000) * (s - 78) ^ 3 * (130 - t) ^ 3
      + (58282669639105781827 / 6033511250000000000000000000000) * (s - 78) ^ 3 * (t - 78) ^ 1 * (130 - t) ^ 2
      + (99933639711747281887 / 12067022500000000000000000000000) * (s - 78) ^ 3 * (t - 78) ^ 2 * (130 - t) ^ 1
      + (331033642160894273 / 150837781250000000000000000000) * (s - 78) ^ 3 * (t - 78) ^ 3 := by positivity
  exact sub_nonneg.1 (le_of_le_of_eq p hE.symm)

theorem sec_level_b3 (s t : ℚ) (h0 : 78 ≤ s) (h0' : s ≤ 130) (h1 : 78 ≤ t) (h1' : t ≤ 130) : (3 / 125) ≤ (5059036445991259949 / 3051757812500000000) + (-10064592653772082681 / 610351562500000000000) * t + (1960958364796759 / 24414062500000000000) * t ^ 2 + (-24044310129517 / 156250000000000000000) * t ^ 3 + (-10064592653772082681 / 610351562500000000000) * s + (1960958364796759 / 24414062500000000000) * s * t + (-24044310129517 / 156250000000000000000) * s * t ^ 2 + (1960958364796759 / 24414062500000000000) * s ^ 2 + (-24044310129517 / 156250000000000000000) * s ^ 2 * t + (-24044310129517 / 156250000000000000000) * s ^ 3 := by
  have a0 : 0 ≤ s - 78 := by linarith
  have b0 : 0 ≤ 130 - s := by linarith
  have a1 : 0 ≤ t - 78 := by linarith
  have b1 : 0 ≤ 130 - t := by linarith
  have hE : (5059036445991259949 / 3051757812500000000) + (-10064592653772082681 / 610351562500000000000) * t + (1960958364796759 / 24414062500000000000) * t ^ 2 + (-24044310129517 / 156250000000000000000) * t ^ 3 + (-10064592653772082681 / 610351562500000000000) * s + (1960958364796759 / 24414062500000000000) * s * t + (-24044310129517 / 156250000000000000000) * s * t ^ 2 + (1960958364796759 / 24414062500000000000) * s ^ 2 + (-24044310129517 / 156250000000000000000) * s ^ 2 * t + (-24044310129517 / 156250000000000000000) * s ^ 3 - (3 / 125) = (143582145494965857889 / 12067022500000000000000000000000) * (130 - s) ^ 3 * (130 - t) ^ 3
      + (8140639974708024917 / 301675562500000000000000000000) * (130 - s) ^ 3 * (t - 78) ^ 1 * (130 - t) ^ 2
      + (273827522920182054593 / 12067022500000000000000000000000) * (130 - s) ^ 3 * (t - 78) ^ 2 * (130 - t) ^ 1
      + (613888531938982059 / 94273613281250000000000000000) * (130 - s) ^ 3 * (t - 78) ^ 3
      + (8140639974708024917 / 301675562500000000000000000000) * (s - 78) ^ 1 * (130 - s) ^ 2 * (130 - t) ^ 3
      + (714837045903670893979 / 12067022500000000000000000000000) * (s - 78) ^ 1 * (130 - s) ^ 2 * (t - 78) ^ 1 * (130 - t) ^ 2
      + (2342028288238494103 / 47136806640625000000000000000) * (s - 78) ^ 1 * (130 - s) ^ 2 * (t - 78) ^ 2 * (130 - t) ^ 1
      + (170728782857792956319 / 12067022500000000000000000000000) * (s - 78) ^ 1 * (130 - s) ^ 2 * (t - 78) ^ 3
      + (273827522920182054593 / 12067022500000000000000000000000) * (s - 78) ^ 2 * (130 - s) ^ 1 * (130 - t) ^ 3
      + (2342028288238494103 / 47136806640625000000000000000) * (s - 78) ^ 2 * (130 - s) ^ 1 * (t - 78) ^ 1 * (130 - t) ^ 2
      + (511191524425601297157 / 12067022500000000000000000000000) * (s - 78) ^ 2 * (130 - s) ^ 1 * (t - 78) ^ 2 * (130 - t) ^ 1
      + (18230099192602153079 / 1508377812500000000000000000000) * (s - 78) ^ 2 * (130 - s) ^ 1 * (t - 78) ^ 3
      + (613888531938982059 / 94273613281250000000000000000) * (s - 78) ^ 3 * (130 - t) ^ 3
      + (170728782857792956319 / 12067022500000000000000000000000) * (s - 78) ^ 3 * (t - 78) ^ 1 * (130 - t) ^ 2
      + (18230099192602153079 / 1508377812500000000000000000000) * (s - 78) ^ 3 * (t - 78) ^ 2 * (130 - t) ^ 1
      + (8096681086515351923 / 2413404500000000000000000000000) * (s - 78) ^ 3 * (t - 78) ^ 3 := by ring
  have p : 0 ≤ (143582145494965857889 / 12067022500000000000000000000000) * (130 - s) ^ 3 * (130 - t) ^ 3
      + (8140639974708024917 / 301675562500000000000000000000) * (130 - s) ^ 3 * (t - 78) ^ 1 * (130 - t) ^ 2
      + (273827522920182054593 / 12067022500000000000000000000000) * (130 - s) ^ 3 * (t - 78) ^ 2 * (130 - t) ^ 1
      + (613888531938982059 / 94273613281250000000000000000) * (130 - s) ^ 3 * (t - 78) ^ 3
      + (8140639974708024917 / 301675562500000000000000000000) * (s - 78) ^ 1 * (130 - s) ^ 2 * (130 - t) ^ 3
      + (714837045903670893979 / 12067022500000000000000000000000) * (s - 78) ^ 1 * (130 - s) ^ 2 * (t - 78) ^ 1 * (130 - t) ^ 2
      + (2342028288238494103 / 47136806640625000000000000000) * (s - 78) ^ 1 * (130 - s) ^ 2 * (t - 78) ^ 2 * (130 - t) ^ 1
      + (170728782857792956319 / 12067022500000000000000000000000) * (s - 78) ^ 1 * (130 - s) ^ 2 * (t - 78) ^ 3
      + (273827522920182054593 / 12067022500000000000000000000000) * (s - 78) ^ 2 * (130 - s) ^ 1 * (130 - t) ^ 3
      + (2342028288238494103 / 47136806640625000000000000000) * (s - 78) ^ 2 * (130 - s) ^ 1 * (t - 78) ^ 1 * (130 - t) ^ 2
      + (511191524425601297157 / 12067022500000000000000000000000) * (s - 78) ^ 2 * (130 - s) ^ 1 * (t - 78) ^ 2 * (130 - t) ^ 1
      + (18230099192602153079 / 1508377812500000000000000000000) * (s - 78) ^ 2 * (130 - s) ^ 1 * (t - 78) ^ 3
      + (613888531938982059 / 94273613281250000000000000000) * (s - 78) ^ 3 * (130 - t) ^ 3
      + (170728782857792956319 / 12067022500000000000000000000000) * (s - 78) ^ 3 * (t - 78) ^ 1 * (130 - t) ^ 2
      + (18230099192602153079 / 1508377812500000000000000000000) * (s - 78) ^ 3 * (t - 78) ^ 2 * (130 - t) ^ 1
      + (8096681086515351923 / 2413404500000000000000000000000) * (s - 78) ^ 3 * (t - 78) ^ 3 := by positivity
  exact sub_nonneg.1 (le_of_le_of_eq p hE.symm)

theorem sec_level_b4 (s t : ℚ) (h0 : 78 ≤ s) (h0' : s ≤ 130) (h1 : 78 ≤ t) (h1' : t ≤ 130) : (3 / 125) ≤ (10953122613948962503 / 6103515625000000000) + (-10306824090529081741 / 610351562500000000000) * t + (7664094754493131 / 97656250000000000000) * t ^ 2 + (-22578574845427 / 156250000000000000000) * t ^ 3 + (-10306824090529081741 / 610351562500000000000) * s + (7664094754493131 / 97656250000000000000) * s * t + (-22578574845427 / 156250000000000000000) * s * t ^ 2 + (7664094754493131 / 97656250000000000000) * s ^ 2 + (-22578574845427 / 156250000000000000000) * s ^ 2 * t + (-22578574845427 / 156250000000000000000) * s ^ 3 := by
  have a0 : 0 ≤ s - 78 := by linarith
  have b0 : 0 ≤ 130 - s := by linarith
  have a1 : 0 ≤ t - 78 := by linarith
  have b1 : 0 ≤ 130 - t := by linarith
  have hE : (10953122613948962503 / 6103515625000000000) + (-10306824090529081741 / 610351562500000000000) * t + (7664094754493131 / 97656250000000000000) * t ^ 2 + (-22578574845427 / 156250000000000000000) * t ^ 3 + (-10306824090529081741 / 610351562500000000000) * s + (7664094754493131 / 97656250000000000000) * s * t + (-22578574845427 / 156250000000000000000) * s * t ^ 2 + (7664094754493131 / 97656250000000000000) * s ^ 2 + (-22578574845427 / 156250000000000000000) * s ^ 2 * t + (-22578574845427 / 156250000000000000000) * s ^ 3 - (3 / 125) = (22457945591772236363 / 1508377812500000000000000000000) * (130 - s) ^ 3 * (130 - t) ^ 3
      + (83694587483447701621 / 2413404500000000000000000000000) * (130 - s) ^ 3 * (t - 78) ^ 1 * (130 - t) ^ 2
      + (176535344289886289449 / 6033511250000000000000000000000) * (130 - s) ^ 3 * (t - 78) ^ 2 * (130 - t) ^ 1
      + (101860033662861181947 / 12067022500000000000000000000000) * (130 - s) ^ 3 * (t - 78) ^ 3
      + (83694587483447701621 / 2413404500000000000000000000000) * (s - 78) ^ 1 * (130 - s) ^ 2 * (130 - t) ^ 3
      + (474490524921829632947 / 6033511250000000000000000000000) * (s - 78) ^ 1 * (130 - s) ^ 2 * (t - 78) ^ 1 * (130 - t) ^ 2
      + (795488529045239933923 / 12067022500000000000000000000000) * (s - 78) ^ 1 * (130 - s) ^ 2 * (t - 78) ^ 2 * (130 - t) ^ 1
      + (56944142479316709221 / 3016755625000000000000000000000) * (s - 78) ^ 1 * (130 - s) ^ 2 * (t - 78) ^ 3
      + (176535344289886289449 / 6033511250000000000000000000000) * (s - 78) ^ 2 * (130 - s) ^ 1 * (130 - t) ^ 3
      + (795488529045239933923 / 12067022500000000000000000000000) * (s - 78) ^ 2 * (130 - s) ^ 1 * (t - 78) ^ 1 * (130 - t) ^ 2
      + (168077237931737069463 / 3016755625000000000000000000000) * (s - 78) ^ 2 * (130 - s) ^ 1 * (t - 78) ^ 2 * (130 - t) ^ 1
      + (192687264559928583577 / 12067022500000000000000000000000) * (s - 78) ^ 2 * (130 - s) ^ 1 * (t - 78) ^ 3
      + (101860033662861181947 / 12067022500000000000000000000000) * (s - 78) ^ 3 * (130 - t) ^ 3
      + (56944142479316709221 / 3016755625000000000000000000000) * (s - 78) ^ 3 * (t - 78) ^ 1 * (130 - t) ^ 2
      + (192687264559928583577 / 12067022500000000000000000000000) * (s - 78) ^ 3 * (t - 78) ^ 2 * (130 - t) ^ 1
      + (5436944607167214889 / 1206702250000000000000000000000) * (s - 78) ^ 3 * (t - 78) ^ 3 := by ring
  have p : 0 ≤ (22457945591772236363 / 1508377812500000000000000000000) * (130 - s) ^ 3 * (130 - t) ^ 3
      + (83694587483447701621 / 2413404500000000000000000000000) * (130 - s) ^ 3 * (t - 78) ^ 1 * (130 - t) ^ 2
      + (176535344289886289449 / 6033511250000000000000000000000) * (130 - s) ^ 3 * (t - 78) ^ 2 * (130 - t) ^ 1
      + (101860033662861181947 / 12067022500000000000000000000000) * (130 - s) ^ 3 * (t - 78) ^ 3
      + (83694587483447701621 / 2413404500000000000000000000000) * (s - 78) ^ 1 * (130 - s) ^ 2 * (130 - t) ^ 3
      + (474490524921829632947 / 6033511250000000000000000000000) * (s - 78) ^ 1 * (130 - s) ^ 2 * (t - 78) ^ 1 * (130 - t) ^ 2
      + (795488529045239933923 / 12067022500000000000000000000000) * (s - 78) ^ 1 * (130 - s) ^ 2 * (t - 78) ^ 2 * (130 - t) ^ 1
      + (56944142479316709221 / 3016755625000000000000000000000) * (s - 78) ^ 1 * (130 - s) ^ 2 * (t - 78) ^ 3
      + (176535344289886289449 / 6033511250000000000000000000000) * (s - 78) ^ 2 * (130 - s) ^ 1 * (130 - t) ^ 3
      + (795488529045239933923 / 12067022500000000000000000000000) * (s - 78) ^ 2 * (130 - s) ^ 1 * (t - 78) ^ 1 * (130 - t) ^ 2
      + (168077237931737069463 / 3016755625000000000000000000000) * (s - 78) ^ 2 * (130 - s) ^ 1 * (t - 78) ^ 2 * (130 - t) ^ 1
      + (192687264559928583577 / 12067022500000000000000000000000) * (s - 78) ^ 2 * (130 - s) ^ 1 * (t - 78) ^ 3
      + (101860033662861181947 / 12067022500000000000000000000000) * (s - 78) ^ 3 * (130 - t) ^ 3
      + (56944142479316709221 / 3016755625000000000000000000000) * (s - 78) ^ 3 * (t - 78) ^ 1 * (130 - t) ^ 2
      + (192687264559928583577 / 12067022500000000000000000000000) * (s - 78) ^ 3 * (t - 78) ^ 2 * (130 - t) ^ 1
      + (5436944607167214889 / 1206702250000000000000000000000) * (s - 78) ^ 3 * (t - 78) ^ 3 := by positivity
  exact sub_nonneg.1 (le_of_le_of_eq p hE.symm)

theorem sec_level (d s t : ℚ) (h : 368 ≤ d) (h' : d ≤ 2048) (h0 : 78 ≤ s) (h0' : s ≤ 130) (h1 : 78 ≤ t) (h1' : t ≤ 130) : (3 / 125) ≤ ((-126321873 / 1000000000) + (213993467 / 100000000000) * t + (-149515549 / 10000000000000) * t ^ 2 + (384468453 / 10000000000000000) * t ^ 3 + (213993467 / 100000000000) * s + (-149515549 / 10000000000000) * s * t + (384468453 / 10000000000000000) * s * t ^ 2 + (-149515549 / 10000000000000) * s ^ 2 + (384468453 / 10000000000000000) * s ^ 2 * t + (384468453 / 10000000000000000) * s ^ 3) + ((133311189 / 100000000000) + (-39050061 / 2500000000000) * t + (446533843 / 5000000000000000) * t ^ 2 + (-100498427 / 500000000000000000) * t ^ 3 + (-39050061 / 2500000000000) * s + (446533843 / 5000000000000000) * s * t + (-100498427 / 500000000000000000) * s * t ^ 2 + (446533843 / 5000000000000000) * s ^ 2 + (-100498427 / 500000000000000000) * s ^ 2 * t + (-100498427 / 500000000000000000) * s ^ 3) * d + ((-12015869 / 125000000000000) + (215766569 / 100000000000000000) * t + (-45615507 / 2500000000000000000) * t ^ 2 + (272621909 / 5000000000000000000000) * t ^ 3 + (215766569 / 100000000000000000) * s + (-45615507 / 2500000000000000000) * s * t + (272621909 / 5000000000000000000000) * s * t ^ 2 + (-45615507 / 2500000000000000000) * s ^ 2 + (272621909 / 5000000000000000000000) * s ^ 2 * t + (272621909 / 5000000000000000000000) * s ^ 3) * d ^ 2 + ((-214132011 / 5000000000000000000) + (86107771 / 200000000000000000000) * t + (-75310559 / 50000000000000000000000) * t ^ 2 + (86107771 / 200000000000000000000) * s + (-75310559 / 50000000000000000000000) * s * t + (-75310559 / 50000000000000000000000) * s ^ 2) * d ^ 3 + ((-217539853 / 100000000000000000000000) + (30548829 / 2500000000000000000000000) * t + (30548829 / 2500000000000000000000000) * s) * d ^ 4 := by
  have B0 := sec_level_b0 s t h0 h0' h1 h1'
  have B1 := sec_level_b1 s t h0 h0' h1 h1'
  have B2 := sec_level_b2 s t h0 h0' h1 h1'
  have B3 := sec_level_b3 s t h0 h0' h1 h1'
  have B4 := sec_level_b4 s t h0 h0' h1 h1'
  have G0 : ∃ z : ℚ, z = ((-126321873 / 1000000000) + (213993467 / 100000000000) * t + (-149515549 / 10000000000000) * t ^ 2 + (384468453 / 10000000000000000) * t ^ 3 + (213993467 / 100000000000) * s + (-149515549 / 10000000000000) * s * t + (384468453 / 10000000000000000) * s * t ^ 2 + (-149515549 / 10000000000000) * s ^ 2 + (384468453 / 10000000000000000) * s ^ 2 * t + (384468453 / 10000000000000000) * s ^ 3) := ⟨_, rfl⟩
  obtain ⟨g0, G0⟩ := G0
  have G1 : ∃ z : ℚ, z = ((133311189 / 100000000000) + (-39050061 / 2500000000000) * t + (446533843 / 5000000000000000) * t ^ 2 + (-100498427 / 500000000000000000) * t ^ 3 + (-39050061 / 2500000000000) * s + (446533843 / 5000000000000000) * s * t + (-100498427 / 500000000000000000) * s * t ^ 2 + (446533843 / 5000000000000000) * s ^ 2 + (-100498427 / 500000000000000000) * s ^ 2 * t + (-100498427 / 500000000000000000) * s ^ 3) := ⟨_, rfl⟩
  obtain ⟨g1, G1⟩ := G1
  have G2 : ∃ z : ℚ, z = ((-12015869 / 125000000000000) + (215766569 / 100000000000000000) * t + (-45615507 / 2500000000000000000) * t ^ 2 + (272621909 / 5000000000000000000000) * t ^ 3 + (215766569 / 100000000000000000) * s + (-45615507 / 2500000000000000000) * s * t + (272621909 / 5000000000000000000000) * s * t ^ 2 + (-45615507 / 2500000000000000000) * s ^ 2 + (272621909 / 5000000000000000000000) * s ^ 2 * t + (272621909 / 5000000000000000000000) * s ^ 3) := ⟨_, rfl⟩
  obtain ⟨g2, G2⟩ := G2
  have G3 : ∃ z : ℚ, z = ((-214132011 / 5000000000000000000) + (86107771 / 200000000000000000000) * t + (-75310559 / 50000000000000000000000) * t ^ 2 + (86107771 / 200000000000000000000) * s + (-75310559 / 50000000000000000000000) * s * t + (-75310559 / 50000000000000000000000) * s ^ 2) := ⟨_, rfl⟩
  obtain ⟨g3, G3⟩ := G3
  have G4 : ∃ z : ℚ, z = ((-217539853 / 100000000000000000000000) + (30548829 / 2500000000000000000000000) * t + (30548829 / 2500000000000000000000000) * s) := ⟨_, rfl⟩
  obtain ⟨g4, G4⟩ := G4
  rw [← G0, ← G1, ← G2, ← G3, ← G4]
  have C0 : (3 / 125) ≤ 1 * g0 + 368 * g1 + 135424 * g2 + 49836032 * g3 + 18339659776 * g4 := by
    refine le_of_le_of_eq B0 ?_
    rw [G0, G1, G2, G3, G4]; ring
  have C1 : (3 / 125) ≤ 1 * g0 + 788 * g1 + 444544 * g2 + 220470272 * g3 + 102064193536 * g4 := by
    refine le_of_le_of_eq B1 ?_
    rw [G0, G1, G2, G3, G4]; ring
  have C2 : (3 / 125) ≤ 1 * g0 + 1208 * g1 + 1224064 * g2 + 910426112 * g3 + 568009424896 * g4 := by
    refine le_of_le_of_eq B2 ?_
    rw [G0, G1, G2, G3, G4]; ring
  have C3 : (3 / 125) ≤ 1 * g0 + 1628 * g1 + 2473984 * g2 + 3305111552 * g3 + 3161095929856 * g4 := by
    refine le_of_le_of_eq B3 ?_
    rw [G0, G1, G2, G3, G4]; ring
  have C4 : (3 / 125) ≤ 1 * g0 + 2048 * g1 + 4194304 * g2 + 8589934592 * g3 + 17592186044416 * g4 := by
    refine le_of_le_of_eq B4 ?_
    rw [G0, G1, G2, G3, G4]; ring
  clear B0
  clear B1
  clear B2
  clear B3
  clear B4
  clear G0
  clear G1
  clear G2
  clear G3
  clear G4
  have a : 0 ≤ d - 368 := by linarith
  have b : 0 ≤ 2048 - d := by linarith
  have D0 : 0 ≤ (1 / 7965941760000) * (d - 368) ^ 0 * (2048 - d) ^ 4 * (1 * g0 + 368 * g1 + 135424 * g2 + 49836032 * g3 + 18339659776 * g4 - (3 / 125)) := mul_nonneg (by positivity) (sub_nonneg.2 C0)
  have D1 : 0 ≤ (1 / 1991485440000) * (d - 368) ^ 1 * (2048 - d) ^ 3 * (1 * g0 + 788 * g1 + 444544 * g2 + 220470272 * g3 + 102064193536 * g4 - (3 / 125)) := mul_nonneg (by positivity) (sub_nonneg.2 C1)
  have D2 : 0 ≤ (1 / 1327656960000) * (d - 368) ^ 2 * (2048 - d) ^ 2 * (1 * g0 + 1208 * g1 + 1224064 * g2 + 910426112 * g3 + 568009424896 * g4 - (3 / 125)) := mul_nonneg (by positivity) (sub_nonneg.2 C2)
  have D3 : 0 ≤ (1 / 1991485440000) * (d - 368) ^ 3 * (2048 - d) ^ 1 * (1 * g0 + 1628 * g1 + 2473984 * g2 + 3305111552 * g3 + 3161095929856 * g4 - (3 / 125)) := mul_nonneg (by positivity) (sub_nonneg.2 C3)
  have D4 : 0 ≤ (1 / 7965941760000) * (d - 368) ^ 4 * (2048 - d) ^ 0 * (1 * g0 + 2048 * g1 + 4194304 * g2 + 8589934592 * g3 + 17592186044416 * g4 - (3 / 125)) := mul_nonneg (by positivity) (sub_nonneg.2 C4)
  have hE : g0 + g1 * d + g2 * d ^ 2 + g3 * d ^ 3 + g4 * d ^ 4 - (3 / 125) = (1 / 7965941760000) * (d - 368) ^ 0 * (2048 - d) ^ 4 * (1 * g0 + 368 * g1 + 135424 * g2 + 49836032 * g3 + 18339659776 * g4 - (3 / 125))
      + (1 / 1991485440000) * (d - 368) ^ 1 * (2048 - d) ^ 3 * (1 * g0 + 788 * g1 + 444544 * g2 + 220470272 * g3 + 102064193536 * g4 - (3 / 125))
      + (1 / 1327656960000) * (d - 368) ^ 2 * (2048 - d) ^ 2 * (1 * g0 + 1208 * g1 + 1224064 * g2 + 910426112 * g3 + 568009424896 * g4 - (3 / 125))
      + (1 / 1991485440000) * (d - 368) ^ 3 * (2048 - d) ^ 1 * (1 * g0 + 1628 * g1 + 2473984 * g2 + 3305111552 * g3 + 3161095929856 * g4 - (3 / 125))
      + (1 / 7965941760000) * (d - 368) ^ 4 * (2048 - d) ^ 0 * (1 * g0 + 2048 * g1 + 4194304 * g2 + 8589934592 * g3 + 17592186044416 * g4 - (3 / 125)) := by ring
  exact sub_nonneg.1 (le_of_le_of_eq (add_nonneg (add_nonneg (add_nonneg (add_nonneg D0 D1) D2) D3) D4) hE.symm)

theorem sec_dim_b0 (d e : ℚ) (h0 : 368 ≤ d) (h0' : d ≤ 2048) (h1 : 368 ≤ e) (h1' : e ≤ 2048) : (77 / 10000) ≤ (380173702611457 / 31250000000000000) + (85038898904131 / 312500000000000000000) * e + (-183516044777 / 3125000000000000000000) * e ^ 2 + (504957607 / 1250000000000000000000000) * e ^ 3 + (85038898904131 / 312500000000000000000) * d + (-183516044777 / 3125000000000000000000) * d * e + (504957607 / 1250000000000000000000000) * d * e ^ 2 + (-183516044777 / 3125000000000000000000) * d ^ 2 + (504957607 / 1250000000000000000000000) * d ^ 2 * e + (504957607 / 1250000000000000000000000) * d ^ 3 := by
  have a0 : 0 ≤ d - 368 := by linarith
  have b0 : 0 ≤ 2048 - d := by linarith
  have a1 : 0 ≤ e - 368 := by linarith
  have b1 : 0 ≤ 2048 - e := by linarith
  have hE : (380173702611457 / 31250000000000000) + (85038898904131 / 312500000000000000000) * e + (-183516044777 / 3125000000000000000000) * e ^ 2 + (504957607 / 1250000000000000000000000) * e ^ 3 + (85038898904131 / 312500000000000000000) * d + (-183516044777 / 3125000000000000000000) * d * e + (504957607 / 1250000000000000000000000) * d * e ^ 2 + (-183516044777 / 3125000000000000000000) * d ^ 2 + (504957607 / 1250000000000000000000000) * d ^ 2 * e + (504957607 / 1250000000000000000000000) * d ^ 3 - (77 / 10000) = (3777721556607050461 / 18296772480000000000000000000000000000000) * (2048 - d) ^ 3 * (2048 - e) ^ 3
      + (2904255092205981637 / 4574193120000000000000000000000000000000) * (2048 - d) ^ 3 * (e - 368) ^ 1 * (2048 - e) ^ 2
      + (11767357584251020313 / 18296772480000000000000000000000000000000) * (2048 - d) ^ 3 * (e - 368) ^ 2 * (2048 - e) ^ 1
      + (1964808788083476613 / 9148386240000000000000000000000000000000) * (2048 - d) ^ 3 * (e - 368) ^ 3
      + (2904255092205981637 / 4574193120000000000000000000000000000000) * (d - 368) ^ 1 * (2048 - d) ^ 2 * (2048 - e) ^ 3
      + (11856369906634807913 / 6098924160000000000000000000000000000000) * (d - 368) ^ 1 * (2048 - d) ^ 2 * (e - 368) ^ 1 * (2048 - e) ^ 2
      + (1993786760374601813 / 1016487360000000000000000000000000000000) * (d - 368) ^ 1 * (2048 - d) ^ 2 * (e - 368) ^ 2 * (2048 - e) ^ 1
      + (11940748748060762443 / 18296772480000000000000000000000000000000) * (d - 368) ^ 1 * (2048 - d) ^ 2 * (e - 368) ^ 3
      + (11767357584251020313 / 18296772480000000000000000000000000000000) * (d - 368) ^ 2 * (2048 - d) ^ 1 * (2048 - e) ^ 3
      + (1993786760374601813 / 1016487360000000000000000000000000000000) * (d - 368) ^ 2 * (2048 - d) ^ 1 * (e - 368) ^ 1 * (2048 - e) ^ 2
      + (12025604259423726043 / 6098924160000000000000000000000000000000) * (d - 368) ^ 2 * (2048 - d) ^ 1 * (e - 368) ^ 2 * (2048 - e) ^ 1
      + (1495085636022224101 / 2287096560000000000000000000000000000000) * (d - 368) ^ 2 * (2048 - d) ^ 1 * (e - 368) ^ 3
      + (1964808788083476613 / 9148386240000000000000000000000000000000) * (d - 368) ^ 3 * (2048 - e) ^ 3
      + (11940748748060762443 / 18296772480000000000000000000000000000000) * (d - 368) ^ 3 * (e - 368) ^ 1 * (2048 - e) ^ 2
      + (1495085636022224101 / 2287096560000000000000000000000000000000) * (d - 368) ^ 3 * (e - 368) ^ 2 * (2048 - e) ^ 1
      + (1317037573472264197 / 6098924160000000000000000000000000000000) * (d - 368) ^ 3 * (e - 368) ^ 3 := by ring
  have p : 0 ≤ (3777721556607050461 / 18296772480000000000000000000000000000000) * (2048 - d) ^ 3 * (2048 - e) ^ 3
      + (2904255092205981637 / 4574193120000000000000000000000000000000) * (2048 - d) ^ 3 * (e - 368) ^ 1 * (2048 - e) ^ 2
      + (11767357584251020313 / 18296772480000000000000000000000000000000) * (2048 - d) ^ 3 * (e - 368) ^ 2 * (2048 - e) ^ 1
      + (1964808788083476613 / 9148386240000000000000000000000000000000) * (2048 - d) ^ 3 * (e - 368) ^ 3
      + (2904255092205981637 / 4574193120000000000000000000000000000000) * (d - 368) ^ 1 * (2048 - d) ^ 2 * (2048 - e) ^ 3
      + (11856369906634807913 / 6098924160000000000000000000000000000000) * (d - 368) ^ 1 * (2048 - d) ^ 2 * (e - 368) ^ 1 * (2048 - e) ^ 2
      + (1993786760374601813 / 1016487360000000000000000000000000000000) * (d - 368) ^ 1 * (2048 - d) ^ 2 * (e - 368) ^ 2 * (2048 - e) ^ 1
      + (11940748748060762443 / 18296772480000000000000000000000000000000) * (d - 368) ^ 1 * (2048 - d) ^ 2 * (e - 368) ^ 3
      + (11767357584251020313 / 18296772480000000000000000000000000000000) * (d - 368) ^ 2 * (2048 - d) ^ 1 * (2048 - e) ^ 3
      + (1993786760374601813 / 1016487360000000000000000000000000000000) * (d - 368) ^ 2 * (2048 - d) ^ 1 * (e - 368) ^ 1 * (2048 - e) ^ 2
      + (12025604259423726043 / 6098924160000000000000000000000000000000) * (d - 368) ^ 2 * (2048 - d) ^ 1 * (e - 368) ^ 2 * (2048 - e) ^ 1
      + (1495085636022224101 / 2287096560000000000000000000000000000000) * (d - 368) ^ 2 * (2048 - d) ^ 1 * (e - 368) ^ 3
      + (1964808788083476613 / 9148386240000000000000000000000000000000) * (d - 368) ^ 3 * (2048 - e) ^ 3
      + (11940748748060762443 / 18296772480000000000000000000000000000000) * (d - 368) ^ 3 * (e - 368) ^ 1 * (2048 - e) ^ 2
      + (1495085636022224101 / 2287096560000000000000000000000000000000) * (d - 368) ^ 3 * (e - 368) ^ 2 * (2048 - e) ^ 1
      + (1317037573472264197 / 6098924160000000000000000000000000000000) * (d - 368) ^ 3 * (e - 368) ^ 3 := by positivity
  exact sub_nonneg.1 (le_of_le_of_eq p hE.symm)

theorem sec_dim_b1 (d e : ℚ) (h0 : 368 ≤ d) (h0' : d ≤ 2048) (h1 : 368 ≤ e) (h1' : e ≤ 2048) : (77 / 10000) ≤ (32131563879757 / 3125000000000000) + (8120801142777 / 62500000000000000000) * e + (-221586746537 / 12500000000000000000000) * e ^ 2 + (9757342227 / 2500000000000000000000000) * e ^ 3 + (8120801142777 / 62500000000000000000) * d + (-221586746537 / 12500000000000000000000) * d * e + (9757342227 / 2500000000000000000000000) * d * e ^ 2 + (-221586746537 / 12500000000000000000000) * d ^ 2 + (9757342227 / 2500000000000000000000000) * d ^ 2 * e + (9757342227 / 2500000000000000000000000) * d ^ 3 := by
  have a0 : 0 ≤ d - 368 := by linarith
  have b0 : 0 ≤ 2048 - d := by linarith
  have a1 : 0 ≤ e - 368 := by linarith
  have b1 : 0 ≤ 2048 - e := by linarith
  have hE : (32131563879757 / 3125000000000000) + (8120801142777 / 62500000000000000000) * e + (-221586746537 / 12500000000000000000000) * e ^ 2 + (9757342227 / 2500000000000000000000000) * e ^ 3 + (8120801142777 / 62500000000000000000) * d + (-221586746537 / 12500000000000000000000) * d * e + (9757342227 / 2500000000000000000000000) * d * e ^ 2 + (-221586746537 / 12500000000000000000000) * d ^ 2 + (9757342227 / 2500000000000000000000000) * d ^ 2 * e + (9757342227 / 2500000000000000000000000) * d ^ 3 - (77 / 10000) = (1086957626983883099 / 9148386240000000000000000000000000000000) * (2048 - d) ^ 3 * (2048 - e) ^ 3
      + (2225655819949730813 / 6098924160000000000000000000000000000000) * (2048 - d) ^ 3 * (e - 368) ^ 1 * (2048 - e) ^ 2
      + (1134111403791117889 / 3049462080000000000000000000000000000000) * (2048 - d) ^ 3 * (e - 368) ^ 2 * (2048 - e) ^ 1
      + (2316676674592655593 / 18296772480000000000000000000000000000000) * (2048 - d) ^ 3 * (e - 368) ^ 3
      + (2225655819949730813 / 6098924160000000000000000000000000000000) * (d - 368) ^ 1 * (2048 - d) ^ 2 * (2048 - e) ^ 3
      + (3411507789722813317 / 3049462080000000000000000000000000000000) * (d - 368) ^ 1 * (2048 - d) ^ 2 * (e - 368) ^ 1 * (2048 - e) ^ 2
      + (6946563116569473379 / 6098924160000000000000000000000000000000) * (d - 368) ^ 1 * (2048 - d) ^ 2 * (e - 368) ^ 2 * (2048 - e) ^ 1
      + (1182131907400476029 / 3049462080000000000000000000000000000000) * (d - 368) ^ 1 * (2048 - d) ^ 2 * (e - 368) ^ 3
      + (1134111403791117889 / 3049462080000000000000000000000000000000) * (d - 368) ^ 2 * (2048 - d) ^ 1 * (2048 - e) ^ 3
      + (6946563116569473379 / 6098924160000000000000000000000000000000) * (d - 368) ^ 2 * (2048 - d) ^ 1 * (e - 368) ^ 1 * (2048 - e) ^ 2
      + (3535488690247721737 / 3049462080000000000000000000000000000000) * (d - 368) ^ 2 * (2048 - d) ^ 1 * (e - 368) ^ 2 * (2048 - e) ^ 1
      + (802565843078526791 / 2032974720000000000000000000000000000000) * (d - 368) ^ 2 * (2048 - d) ^ 1 * (e - 368) ^ 3
      + (2316676674592655593 / 18296772480000000000000000000000000000000) * (d - 368) ^ 3 * (2048 - e) ^ 3
      + (1182131907400476029 / 3049462080000000000000000000000000000000) * (d - 368) ^ 3 * (e - 368) ^ 1 * (2048 - e) ^ 2
      + (802565843078526791 / 2032974720000000000000000000000000000000) * (d - 368) ^ 3 * (e - 368) ^ 2 * (2048 - e) ^ 1
      + (1231019137811957519 / 9148386240000000000000000000000000000000) * (d - 368) ^ 3 * (e - 368) ^ 3 := by ring
  have p : 0 ≤ (1086957626983883099 / 9148386240000000000000000000000000000000) * (2048 - d) ^ 3 * (2048 - e) ^ 3
      + (2225655819949730813 / 6098924160000000000000000000000000000000) * (2048 - d) ^ 3 * (e - 368) ^ 1 * (2048 - e) ^ 2
      + (1134111403791117889 / 3049462080000000000000000000000000000000) * (2048 - d) ^ 3 * (e - 368) ^ 2 * (2048 - e) ^ 1
      + (2316676674592655593 / 18296772480000000000000000000000000000000) * (2048 - d) ^ 3 * (e - 368) ^ 3
      + (2225655819949730813 / 6098924160000000000000000000000000000000) * (d - 368) ^ 1 * (2048 - d) ^ 2 * (2048 - e) ^ 3
      + (3411507789722813317 / 3049462080000000000000000000000000000000) * (d - 368) ^ 1 * (2048 - d) ^ 2 * (e - 368) ^ 1 * (2048 - e) ^ 2
      + (6946563116569473379 / 6098924160000000000000000000000000000000) * (d - 368) ^ 1 * (2048 - d) ^ 2 * (e - 368) ^ 2 * (2048 - e) ^ 1
      + (1182131907400476029 / 3049462080000000000000000000000000000000) * (d - 368) ^ 1 * (2048 - d) ^ 2 * (e - 368) ^ 3
      + (1134111403791117889 / 3049462080000000000000000000000000000000) * (d - 368) ^ 2 * (2048 - d) ^ 1 * (2048 - e) ^ 3
      + (6946563116569473379 / 6098924160000000000000000000000000000000) * (d - 368) ^ 2 * (2048 - d) ^ 1 * (e - 368) ^ 1 * (2048 - e) ^ 2
      + (3535488690247721737 / 3049462080000000000000000000000000000000) * (d - 368) ^ 2 * (2048 - d) ^ 1 * (e - 368) ^ 2 * (2048 - e) ^ 1
      + (802565843078526791 / 2032974720000000000000000000000000000000) * (d - 368) ^ 2 * (2048 - d) ^ 1 * (e - 368) ^ 3
      + (2316676674592655593 / 18296772480000000000000000000000000000000) * (d - 368) ^ 3 * (2048 - e) ^ 3
      + (1182131907400476029 / 3049462080000000000000000000000000000000) * (d - 368) ^ 3 * (e - 368) ^ 1 * (2048 - e) ^ 2
      + (802565843078526791 / 2032974720000000000000000000000000000000) * (d - 368) ^ 3 * (e - 368) ^ 2 * (2048 - e) ^ 1
      + (1231019137811957519 / 9148386240000000000000000000000000000000) * (d - 368) ^ 3 * (e - 368) ^ 3 := by positivity
  exact sub_nonneg.1 (le_of_le_of_eq p hE.symm)

theorem sec_dim_b2 (d e : ℚ) (h0 : 368 ≤ d) (h0' : d ≤ 2048) (h1 : 368 ≤ e) (h1' : e ≤ 2048) : (77 / 10000) ≤ (11658448400403 / 1250000000000000) + (1595126173177 / 37500000000000000000) * e + (-44697185897 / 3750000000000000000000) * e ^ 2 + (148044697 / 78125000000000000000000) * e ^ 3 + (1595126173177 / 37500000000000000000) * d + (-44697185897 / 3750000000000000000000) * d * e + (148044697 / 78125000000000000000000) * d * e ^ 2 + (-44697185897 / 3750000000000000000000) * d ^ 2 + (148044697 / 78125000000000000000000) * d ^ 2 * e + (148044697 / 78125000000000000000000) * d ^ 3 := by
  have a0 : 0 ≤ d - 368 := by linarith
  have b0 : 0 ≤ 2048 - d := by linarith
  have a1 : 0 ≤ e - 368 := by linarith
  have b1 : 0 ≤ 2048 - e := by linarith
  have hE : (11658448400403 / 1250000000000000) + (1595126173177 / 37500000000000000000) * e + (-44697185897 / 3750000000000000000000) * e ^ 2 + (148044697 / 78125000000000000000000) * e ^ 3 + (1595126173177 / 37500000000000000000) * d + (-44697185897 / 3750000000000000000000) * d * e + (148044697 / 78125000000000000000000) * d * e ^ 2 + (-44697185897 / 3750000000000000000000) * d ^ 2 + (148044697 / 78125000000000000000000) * d ^ 2 * e + (148044697 / 78125000000000000000000) * d ^ 3 - (77 / 10000) = (12111335626592673239 / 164670952320000000000000000000000000000000) * (2048 - d) ^ 3 * (2048 - e) ^ 3
      + (25181370521405219 / 112943040000000000000000000000000000000) * (2048 - d) ^ 3 * (e - 368) ^ 1 * (2048 - e) ^ 2
      + (12302046143356850929 / 54890317440000000000000000000000000000000) * (2048 - d) ^ 3 * (e - 368) ^ 2 * (2048 - e) ^ 1
      + (3092211462380608181 / 41167738080000000000000000000000000000000) * (2048 - d) ^ 3 * (e - 368) ^ 3
      + (25181370521405219 / 112943040000000000000000000000000000000) * (d - 368) ^ 1 * (2048 - d) ^ 2 * (2048 - e) ^ 3
      + (1371554043843824081 / 2032974720000000000000000000000000000000) * (d - 368) ^ 1 * (2048 - d) ^ 2 * (e - 368) ^ 1 * (2048 - e) ^ 2
      + (1032852380216981027 / 1524731040000000000000000000000000000000) * (d - 368) ^ 1 * (2048 - d) ^ 2 * (e - 368) ^ 2 * (2048 - e) ^ 1
      + (1383853621166557691 / 6098924160000000000000000000000000000000) * (d - 368) ^ 1 * (2048 - d) ^ 2 * (e - 368) ^ 3
      + (12302046143356850929 / 54890317440000000000000000000000000000000) * (d - 368) ^ 2 * (2048 - d) ^ 1 * (2048 - e) ^ 3
      + (1032852380216981027 / 1524731040000000000000000000000000000000) * (d - 368) ^ 2 * (2048 - d) ^ 1 * (e - 368) ^ 1 * (2048 - e) ^ 2
      + (12438125052342793019 / 18296772480000000000000000000000000000000) * (d - 368) ^ 2 * (2048 - d) ^ 1 * (e - 368) ^ 2 * (2048 - e) ^ 1
      + (6249772812820964507 / 27445158720000000000000000000000000000000) * (d - 368) ^ 2 * (2048 - d) ^ 1 * (e - 368) ^ 3
      + (3092211462380608181 / 41167738080000000000000000000000000000000) * (d - 368) ^ 3 * (2048 - e) ^ 3
      + (1383853621166557691 / 6098924160000000000000000000000000000000) * (d - 368) ^ 3 * (e - 368) ^ 1 * (2048 - e) ^ 2
      + (6249772812820964507 / 27445158720000000000000000000000000000000) * (d - 368) ^ 3 * (e - 368) ^ 2 * (2048 - e) ^ 1
      + (12569244968019178109 / 164670952320000000000000000000000000000000) * (d - 368) ^ 3 * (e - 368) ^ 3 := by ring
  have p : 0 ≤ (12111335626592673239 / 164670952320000000000000000000000000000000) * (2048 - d) ^ 3 * (2048 - e) ^ 3
      + (25181370521405219 / 112943040000000000000000000000000000000) * (2048 - d) ^ 3 * (e - 368) ^ 1 * (2048 - e) ^ 2
      + (12302046143356850929 / 54890317440000000000000000000000000000000) * (2048 - d) ^ 3 * (e - 368) ^ 2 * (2048 - e) ^ 1
      + (3092211462380608181 / 41167738080000000000000000000000000000000) * (2048 - d) ^ 3 * (e - 368) ^ 3
      + (25181370521405219 / 112943040000000000000000000000000000000) * (d - 368) ^ 1 * (2048 - d) ^ 2 * (2048 - e) ^ 3
      + (1371554043843824081 / 2032974720000000000000000000000000000000) * (d - 368) ^ 1 * (2048 - d) ^ 2 * (e - 368) ^ 1 * (2048 - e) ^ 2
      + (1032852380216981027 / 1524731040000000000000000000000000000000) * (d - 368) ^ 1 * (2048 - d) ^ 2 * (e - 368) ^ 2 * (2048 - e) ^ 1
      + (1383853621166557691 / 6098924160000000000000000000000000000000) * (d - 368) ^ 1 * (2048 - d) ^ 2 * (e - 368) ^ 3
      + (12302046143356850929 / 54890317440000000000000000000000000000000) * (d - 368) ^ 2 * (2048 - d) ^ 1 * (2048 - e) ^ 3
      + (1032852380216981027 / 1524731040000000000000000000000000000000) * (d - 368) ^ 2 * (2048 - d) ^ 1 * (e - 368) ^ 1 * (2048 - e) ^ 2
      + (12438125052342793019 / 18296772480000000000000000000000000000000) * (d - 368) ^ 2 * (2048 - d) ^ 1 * (e - 368) ^ 2 * (2048 - e) ^ 1
      + (6249772812820964507 / 27445158720000000000000000000000000000000) * (d - 368) ^ 2 * (2048 - d) ^ 1 * (e - 368) ^ 3
      + (3092211462380608181 / 41167738080000000000000000000000000000000) * (d - 368) ^ 3 * (2048 - e) ^ 3
      + (1383853621166557691 / 6098924160000000000000000000000000000000) * (d - 368) ^ 3 * (e - 368) ^ 1 * (2048 - e) ^ 2
      + (6249772812820964507 / 27445158720000000000000000000000000000000) * (d - 368) ^ 3 * (e - 368) ^ 2 * (2048 - e) ^ 1
      + (12569244968019178109 / 164670952320000000000000000000000000000000) * (d - 368) ^ 3 * (e - 368) ^ 3 := by positivity
  exact sub_nonneg.1 (le_of_le_of_eq p hE.symm)

theorem sec_dim_b3 (d e : ℚ) (h0 : 368 ≤ d) (h0' : d ≤ 2048) (h1 : 368 ≤ e) (h1' : e ≤ 2048) : (77 / 10000) ≤ (261394984707 / 31250000000000) + (133336556953 / 2500000000000000000) * e + (5822135761 / 500000000000000000000) * e ^ 2 + (-2809964111 / 500000000000000000000000) * e ^ 3 + (133336556953 / 2500000000000000000) * d + (5822135761 / 500000000000000000000) * d * e + (-2809964111 / 500000000000000000000000) * d * e ^ 2 + (5822135761 / 500000000000000000000) * d ^ 2 + (-2809964111 / 500000000000000000000000) * d ^ 2 * e + (-2809964111 / 500000000000000000000000) * d ^ 3 := by
  have a0 : 0 ≤ d - 368 := by linarith
  have b0 : 0 ≤ 2048 - d := by linarith
  have a1 : 0 ≤ e - 368 := by linarith
  have b1 : 0 ≤ 2048 - e := by linarith
  have hE : (261394984707 / 31250000000000) + (133336556953 / 2500000000000000000) * e + (5822135761 / 500000000000000000000) * e ^ 2 + (-2809964111 / 500000000000000000000000) * e ^ 3 + (133336556953 / 2500000000000000000) * d + (5822135761 / 500000000000000000000) * d * e + (-2809964111 / 500000000000000000000000) * d * e ^ 2 + (5822135761 / 500000000000000000000) * d ^ 2 + (-2809964111 / 500000000000000000000000) * d ^ 2 * e + (-2809964111 / 500000000000000000000000) * d ^ 3 - (77 / 10000) = (28788421011552409 / 914838624000000000000000000000000000000) * (2048 - d) ^ 3 * (2048 - e) ^ 3
      + (362311216868703073 / 3659354496000000000000000000000000000000) * (2048 - d) ^ 3 * (e - 368) ^ 1 * (2048 - e) ^ 2
      + (95177568341369897 / 914838624000000000000000000000000000000) * (2048 - d) ^ 3 * (e - 368) ^ 2 * (2048 - e) ^ 1
      + (129215560937657651 / 3659354496000000000000000000000000000000) * (2048 - d) ^ 3 * (e - 368) ^ 3
      + (362311216868703073 / 3659354496000000000000000000000000000000) * (d - 368) ^ 1 * (2048 - d) ^ 2 * (2048 - e) ^ 3
      + (23729854928396543 / 76236552000000000000000000000000000000) * (d - 368) ^ 1 * (2048 - d) ^ 2 * (e - 368) ^ 1 * (2048 - e) ^ 2
      + (132382435357193051 / 406594944000000000000000000000000000000) * (d - 368) ^ 1 * (2048 - d) ^ 2 * (e - 368) ^ 2 * (2048 - e) ^ 1
      + (50213569963052621 / 457419312000000000000000000000000000000) * (d - 368) ^ 1 * (2048 - d) ^ 2 * (e - 368) ^ 3
      + (95177568341369897 / 914838624000000000000000000000000000000) * (d - 368) ^ 2 * (2048 - d) ^ 1 * (2048 - e) ^ 3
      + (132382435357193051 / 406594944000000000000000000000000000000) * (d - 368) ^ 2 * (2048 - d) ^ 1 * (e - 368) ^ 1 * (2048 - e) ^ 2
      + (103060444368540517 / 304946208000000000000000000000000000000) * (d - 368) ^ 2 * (2048 - d) ^ 1 * (e - 368) ^ 2 * (2048 - e) ^ 1
      + (412982148757242833 / 3659354496000000000000000000000000000000) * (d - 368) ^ 2 * (2048 - d) ^ 1 * (e - 368) ^ 3
      + (129215560937657651 / 3659354496000000000000000000000000000000) * (d - 368) ^ 3 * (2048 - e) ^ 3
      + (50213569963052621 / 457419312000000000000000000000000000000) * (d - 368) ^ 3 * (e - 368) ^ 1 * (2048 - e) ^ 2
      + (412982148757242833 / 3659354496000000000000000000000000000000) * (d - 368) ^ 3 * (e - 368) ^ 2 * (2048 - e) ^ 1
      + (630333196227551 / 16941456000000000000000000000000000000) * (d - 368) ^ 3 * (e - 368) ^ 3 := by ring
  have p : 0 ≤ (28788421011552409 / 914838624000000000000000000000000000000) * (2048 - d) ^ 3 * (2048 - e) ^ 3
      + (362311216868703073 / 3659354496000000000000000000000000000000) * (2048 - d) ^ 3 * (e - 368) ^ 1 * (2048 - e) ^ 2
      + (95177568341369897 / 914838624000000000000000000000000000000) * (2048 - d) ^ 3 * (e - 368) ^ 2 * (2048 - e) ^ 1
      + (129215560937657651 / 3659354496000000000000000000000000000000) * (2048 - d) ^ 3 * (e - 368) ^ 3
      + (362311216868703073 / 3659354496000000000000000000000000000000) * (d - 368) ^ 1 * (2048 - d) ^ 2 * (2048 - e) ^ 3
      + (23729854928396543 / 76236552000000000000000000000000000000) * (d - 368) ^ 1 * (2048 - d) ^ 2 * (e - 368) ^ 1 * (2048 - e) ^ 2
      + (132382435357193051 / 406594944000000000000000000000000000000) * (d - 368) ^ 1 * (2048 - d) ^ 2 * (e - 368) ^ 2 * (2048 - e) ^ 1
      + (50213569963052621 / 457419312000000000000000000000000000000) * (d - 368) ^ 1 * (2048 - d) ^ 2 * (e - 368) ^ 3
      + (95177568341369897 / 914838624000000000000000000000000000000) * (d - 368) ^ 2 * (2048 - d) ^ 1 * (2048 - e) ^ 3
      + (132382435357193051 / 406594944000000000000000000000000000000) * (d - 368) ^ 2 * (2048 - d) ^ 1 * (e - 368) ^ 1 * (2048 - e) ^ 2
      + (103060444368540517 / 304946208000000000000000000000000000000) * (d - 368) ^ 2 * (2048 - d) ^ 1 * (e - 368) ^ 2 * (2048 - e) ^ 1
      + (412982148757242833 / 3659354496000000000000000000000000000000) * (d - 368) ^ 2 * (2048 - d) ^ 1 * (e - 368) ^ 3
      + (129215560937657651 / 3659354496000000000000000000000000000000) * (d - 368) ^ 3 * (2048 - e) ^ 3
      + (50213569963052621 / 457419312000000000000000000000000000000) * (d - 368) ^ 3 * (e - 368) ^ 1 * (2048 - e) ^ 2
      + (412982148757242833 / 3659354496000000000000000000000000000000) * (d - 368) ^ 3 * (e - 368) ^ 2 * (2048 - e) ^ 1
      + (630333196227551 / 16941456000000000000000000000000000000) * (d - 368) ^ 3 * (e - 368) ^ 3 := by positivity
  exact sub_nonneg.1 (le_of_le_of_eq p hE.symm)

theorem sec_dim_b4 (d e : ℚ) (h0 : 368 ≤ d) (h0' : d ≤ 2048) (h1 : 368 ≤ e) (h1' : e ≤ 2048) : (77 / 10000) ≤ (396523040837 / 50000000000000) + (-96468121149 / 500000000000000000) * e + (1323874487 / 12500000000000000000) * e ^ 2 + (-932088207 / 50000000000000000000000) * e ^ 3 + (-96468121149 / 500000000000000000) * d + (1323874487 / 12500000000000000000) * d * e + (-932088207 / 50000000000000000000000) * d * e ^ 2 + (1323874487 / 12500000000000000000) * d ^ 2 + (-932088207 / 50000000000000000000000) * d ^ 2 * e + (-932088207 / 50000000000000000000000) * d ^ 3 := by
  have a0 : 0 ≤ d - 368 := by linarith
  have b0 : 0 ≤ 2048 - d := by linarith
  have a1 : 0 ≤ e - 368 := by linarith
  have b1 : 0 ≤ 2048 - e := by linarith
  have hE : (396523040837 / 50000000000000) + (-96468121149 / 500000000000000000) * e + (1323874487 / 12500000000000000000) * e ^ 2 + (-932088207 / 50000000000000000000000) * e ^ 3 + (-96468121149 / 500000000000000000) * d + (1323874487 / 12500000000000000000) * d * e + (-932088207 / 50000000000000000000000) * d * e ^ 2 + (1323874487 / 12500000000000000000) * d ^ 2 + (-932088207 / 50000000000000000000000) * d ^ 2 * e + (-932088207 / 50000000000000000000000) * d ^ 3 - (77 / 10000) = (12477721390468667 / 2195612697600000000000000000000000000000) * (2048 - d) ^ 3 * (2048 - e) ^ 3
      + (936558622585219 / 91483862400000000000000000000000000000) * (2048 - d) ^ 3 * (e - 368) ^ 1 * (2048 - e) ^ 2
      + (9716581868051237 / 731870899200000000000000000000000000000) * (2048 - d) ^ 3 * (e - 368) ^ 2 * (2048 - e) ^ 1
      + (5258995583775061 / 1097806348800000000000000000000000000000) * (2048 - d) ^ 3 * (e - 368) ^ 3
      + (936558622585219 / 91483862400000000000000000000000000000) * (d - 368) ^ 1 * (2048 - d) ^ 2 * (2048 - e) ^ 3
      + (1636779445537879 / 81318988800000000000000000000000000000) * (d - 368) ^ 1 * (2048 - d) ^ 2 * (e - 368) ^ 1 * (2048 - e) ^ 2
      + (4289227112349461 / 121978483200000000000000000000000000000) * (d - 368) ^ 1 * (2048 - d) ^ 2 * (e - 368) ^ 2 * (2048 - e) ^ 1
      + (9864747759910607 / 731870899200000000000000000000000000000) * (d - 368) ^ 1 * (2048 - d) ^ 2 * (e - 368) ^ 3
      + (9716581868051237 / 731870899200000000000000000000000000000) * (d - 368) ^ 2 * (2048 - d) ^ 1 * (2048 - e) ^ 3
      + (4289227112349461 / 121978483200000000000000000000000000000) * (d - 368) ^ 2 * (2048 - d) ^ 1 * (e - 368) ^ 1 * (2048 - e) ^ 2
      + (4243818116165669 / 81318988800000000000000000000000000000) * (d - 368) ^ 2 * (2048 - d) ^ 1 * (e - 368) ^ 2 * (2048 - e) ^ 1
      + (3385878338604623 / 182967724800000000000000000000000000000) * (d - 368) ^ 2 * (2048 - d) ^ 1 * (e - 368) ^ 3
      + (5258995583775061 / 1097806348800000000000000000000000000000) * (d - 368) ^ 3 * (2048 - e) ^ 3
      + (9864747759910607 / 731870899200000000000000000000000000000) * (d - 368) ^ 3 * (e - 368) ^ 1 * (2048 - e) ^ 2
      + (3385878338604623 / 182967724800000000000000000000000000000) * (d - 368) ^ 3 * (e - 368) ^ 2 * (2048 - e) ^ 1
      + (12922219066046777 / 2195612697600000000000000000000000000000) * (d - 368) ^ 3 * (e - 368) ^ 3 := by ring
  have p : 0 ≤ (12477721390468667 / 2195612697600000000000000000000000000000) * (2048 - d) ^ 3 * (2048 - e) ^ 3
      + (936558622585219 / 91483862400000000000000000000000000000) * (2048 - d) ^ 3 * (e - 368) ^ 1 * (2048 - e) ^ 2
      + (9716581868051237 / 731870899200000000000000000000000000000) * (2048 - d) ^ 3 * (e - 368) ^ 2 * (2048 - e) ^ 1
      + (5258995583775061 / 1097806348800000000000000000000000000000) * (2048 - d) ^ 3 * (e - 368) ^ 3
      + (936558622585219 / 91483862400000000000000000000000000000) * (d - 368) ^ 1 * (2048 - d) ^ 2 * (2048 - e) ^ 3
      + (1636779445537879 / 81318988800000000000000000000000000000) * (d - 368) ^ 1 * (2048 - d) ^ 2 * (e - 368) ^ 1 * (2048 - e) ^ 2
      + (4289227112349461 / 121978483200000000000000000000000000000) * (d - 368) ^ 1 * (2048 - d) ^ 2 * (e - 368) ^ 2 * (2048 - e) ^ 1
      + (9864747759910607 / 731870899200000000000000000000000000000) * (d - 368) ^ 1 * (2048 - d) ^ 2 * (e - 368) ^ 3
      + (9716581868051237 / 731870899200000000000000000000000000000) * (d - 368) ^ 2 * (2048 - d) ^ 1 * (2048 - e) ^ 3
      + (4289227112349461 / 121978483200000000000000000000000000000) * (d - 368) ^ 2 * (2048 - d) ^ 1 * (e - 368) ^ 1 * (2048 - e) ^ 2
      + (4243818116165669 / 81318988800000000000000000000000000000) * (d - 368) ^ 2 * (2048 - d) ^ 1 * (e - 368) ^ 2 * (2048 - e) ^ 1
      + (3385878338604623 / 182967724800000000000000000000000000000) * (d - 368) ^ 2 * (2048 - d) ^ 1 * (e - 368) ^ 3
      + (5258995583775061 / 1097806348800000000000000000000000000000) * (d - 368) ^ 3 * (2048 - e) ^ 3
      + (9864747759910607 / 731870899200000000000000000000000000000) * (d - 368) ^ 3 * (e - 368) ^ 1 * (2048 - e) ^ 2
      + (3385878338604623 / 182967724800000000000000000000000000000) * (d - 368) ^ 3 * (e - 368) ^ 2 * (2048 - e) ^ 1
      + (12922219066046777 / 2195612697600000000000000000000000000000) * (d - 368) ^ 3 * (e - 368) ^ 3 := by positivity
  exact sub_nonneg.1 (le_of_le_of_eq p hE.symm)

theorem sec_dim (s d e : ℚ) (h : 78 ≤ s) (h' : s ≤ 130) (h0 : 368 ≤ d) (h0' : d ≤ 2048) (h1 : 368 ≤ e) (h1' : e ≤ 2048) : (77 / 10000) ≤ ((560568533 / 10000000000) + (-739088707 / 1000000000000000) * e + (-37364041 / 25000000000000000) * e ^ 2 + (-94933489 / 1000000000000000000000) * e ^ 3 + (-739088707 / 1000000000000000) * d + (-37364041 / 25000000000000000) * d * e + (-94933489 / 1000000000000000000000) * d * e ^ 2 + (-37364041 / 25000000000000000) * d ^ 2 + (-94933489 / 1000000000000000000000) * d ^ 2 * e + (-94933489 / 1000000000000000000000) * d ^ 3) + ((-133311189 / 100000000000) + (12015869 / 125000000000000) * e + (214132011 / 5000000000000000000) * e ^ 2 + (217539853 / 100000000000000000000000) * e ^ 3 + (12015869 / 125000000000000) * d + (214132011 / 5000000000000000000) * d * e + (217539853 / 100000000000000000000000) * d * e ^ 2 + (214132011 / 5000000000000000000) * d ^ 2 + (217539853 / 100000000000000000000000) * d ^ 2 * e + (217539853 / 100000000000000000000000) * d ^ 3) * s + ((39050061 / 2500000000000) + (-215766569 / 100000000000000000) * e + (-86107771 / 200000000000000000000) * e ^ 2 + (-30548829 / 2500000000000000000000000) * e ^ 3 + (-215766569 / 100000000000000000) * d + (-86107771 / 200000000000000000000) * d * e + (-30548829 / 2500000000000000000000000) * d * e ^ 2 + (-86107771 / 200000000000000000000) * d ^ 2 + (-30548829 / 2500000000000000000000000) * d ^ 2 * e + (-30548829 / 2500000000000000000000000) * d ^ 3) * s ^ 2 + ((-446533843 / 5000000000000000) + (45615507 / 2500000000000000000) * e + (75310559 / 50000000000000000000000) * e ^ 2 + (45615507 / 2500000000000000000) * d + (75310559 / 50000000000000000000000) * d * e + (75310559 / 50000000000000000000000) * d ^ 2) * s ^ 3 + ((100498427 / 500000000000000000) + (-272621909 / 5000000000000000000000) * e + (-272621909 / 5000000000000000000000) * d) * s ^ 4 := by
  have B0 := sec_dim_b0 d e h0 h0' h1 h1'
  have B1 := sec_dim_b1 d e h0 h0' h1 h1'
  have B2 := sec_dim_b2 d e h0 h0' h1 h1'
  have B3 := sec_dim_b3 d e h0 h0' h1 h1'
  have B4 := sec_dim_b4 d e h0 h0' h1 h1'
  have G0 : ∃ z : ℚ, z = ((560568533 / 10000000000) + (-739088707 / 1000000000000000) * e + (-37364041 / 25000000000000000) * e ^ 2 + (-94933489 / 1000000000000000000000) * e ^ 3 + (-739088707 / 1000000000000000) * d + (-37364041 / 25000000000000000) * d * e + (-94933489 / 1000000000000000000000) * d * e ^ 2 + (-37364041 / 25000000000000000) * d ^ 2 + (-94933489 / 1000000000000000000000) * d ^ 2 * e + (-94933489 / 1000000000000000000000) * d ^ 3) := ⟨_, rfl⟩
  obtain ⟨g0, G0⟩ := G0
  have G1 : ∃ z : ℚ, z = ((-133311189 / 100000000000) + (12015869 / 125000000000000) * e + (214132011 / 5000000000000000000) * e ^ 2 + (217539853 / 100000000000000000000000) * e ^ 3 + (12015869 / 125000000000000) * d + (214132011 / 5000000000000000000) * d * e + (217539853 / 100000000000000000000000) * d * e ^ 2 + (214132011 / 5000000000000000000) * d ^ 2 + (217539853 / 100000000000000000000000) * d ^ 2 * e + (217539853 / 100000000000000000000000) * d ^ 3) := ⟨_, rfl⟩
  obtain ⟨g1, G1⟩ := G1
  have G2 : ∃ z : ℚ, z = ((39050061 / 2500000000000) + (-215766569 / 100000000000000000) * e + (-86107771 / 200000000000000000000) * e ^ 2 + (-30548829 / 2500000000000000000000000) * e ^ 3 + (-215766569 / 100000000000000000) * d + (-86107771 / 200000000000000000000) * d * e + (-30548829 / 2500000000000000000000000) * d * e ^ 2 + (-86107771 / 200000000000000000000) * d ^ 2 + (-30548829 / 2500000000000000000000000) * d ^ 2 * e + (-30548829 / 2500000000000000000000000) * d ^ 3) := ⟨_, rfl⟩
  obtain ⟨g2, G2⟩ := G2
  have G3 : ∃ z : ℚ, z = ((-446533843 / 5000000000000000) + (45615507 / 2500000000000000000) * e + (75310559 / 50000000000000000000000) * e ^ 2 + (45615507 / 2500000000000000000) * d + (75310559 / 50000000000000000000000) * d * e + (75310559 / 50000000000000000000000) * d ^ 2) := ⟨_, rfl⟩
  obtain ⟨g3, G3⟩ := G3
  have G4 : ∃ z : ℚ, z = ((100498427 / 500000000000000000) + (-272621909 / 5000000000000000000000) * e + (-272621909 / 5000000000000000000000) * d) := ⟨_, rfl⟩
  obtain ⟨g4, G4⟩ := G4
  rw [← G0, ← G1, ← G2, ← G3, ← G4]
  have C0 : (77 / 10000) ≤ 1 * g0 + 78 * g1 + 6084 * g2 + 474552 * g3 + 37015056 * g4 := by
    refine le_of_le_of_eq B0 ?_
    rw [G0, G1, G2, G3, G4]; ring
  have C1 : (77 / 10000) ≤ 1 * g0 + 91 * g1 + 8112 * g2 + 711828 * g3 + 61691760 * g4 := by
    refine le_of_le_of_eq B1 ?_
    rw [G0, G1, G2, G3, G4]; ring
  have C2 : (77 / 10000) ≤ 1 * g0 + 104 * g1 + (31772 / 3) * g2 + 1054560 * g3 + 102819600 * g4 := by
    refine le_of_le_of_eq B2 ?_
    rw [G0, G1, G2, G3, G4]; ring
  have C3 : (77 / 10000) ≤ 1 * g0 + 117 * g1 + 13520 * g2 + 1537900 * g3 + 171366000 * g4 := by
    refine le_of_le_of_eq B3 ?_
    rw [G0, G1, G2, G3, G4]; ring
  have C4 : (77 / 10000) ≤ 1 * g0 + 130 * g1 + 16900 * g2 + 2197000 * g3 + 285610000 * g4 := by
    refine le_of_le_of_eq B4 ?_
    rw [G0, G1, G2, G3, G4]; ring
  clear B0
  clear B1
  clear B2
  clear B3
  clear B4
  clear G0
  clear G1
  clear G2
  clear G3
  clear G4
  have a : 0 ≤ s - 78 := by linarith
  have b : 0 ≤ 130 - s := by linarith
  have D0 : 0 ≤ (1 / 7311616) * (s - 78) ^ 0 * (130 - s) ^ 4 * (1 * g0 + 78 * g1 + 6084 * g2 + 474552 * g3 + 37015056 * g4 - (77 / 10000)) := mul_nonneg (by positivity) (sub_nonneg.2 C0)
  have D1 : 0 ≤ (1 / 1827904) * (s - 78) ^ 1 * (130 - s) ^ 3 * (1 * g0 + 91 * g1 + 8112 * g2 + 711828 * g3 + 61691760 * g4 - (77 / 10000)) := mul_nonneg (by positivity) (sub_nonneg.2 C1)
  have D2 : 0 ≤ (3 / 3655808) * (s - 78) ^ 2 * (130 - s) ^ 2 * (1 * g0 + 104 * g1 + (31772 / 3) * g2 + 1054560 * g3 + 102819600 * g4 - (77 / 10000)) := mul_nonneg (by positivity) (sub_nonneg.2 C2)
  have D3 : 0 ≤ (1 / 1827904) * (s - 78) ^ 3 * (130 - s) ^ 1 * (1 * g0 + 117 * g1 + 13520 * g2 + 1537900 * g3 + 171366000 * g4 - (77 / 10000)) := mul_nonneg (by positivity) (sub_nonneg.2 C3)
  have D4 : 0 ≤ (1 / 7311616) * (s - 78) ^ 4 * (130 - s) ^ 0 * (1 * g0 + 130 * g1 + 16900 * g2 + 2197000 * g3 + 285610000 * g4 - (77 / 10000)) := mul_nonneg (by positivity) (sub_nonneg.2 C4)
  have hE : g0 + g1 * s + g2 * s ^ 2 + g3 * s ^ 3 + g4 * s ^ 4 - (77 / 10000) = (1 / 7311616) * (s - 78) ^ 0 * (130 - s) ^ 4 * (1 * g0 + 78 * g1 + 6084 * g2 + 474552 * g3 + 37015056 * g4 - (77 / 10000))
      + (1 / 1827904) * (s - 78) ^ 1 * (130 - s) ^ 3 * (1 * g0 + 91 * g1 + 8112 * g2 + 711828 * g3 + 61691760 * g4 - (77 / 10000))
      + (3 / 3655808) * (s - 78) ^ 2 * (130 - s) ^ 2 * (1 * g0 + 104 * g1 + (31772 / 3) * g2 + 1054560 * g3 + 102819600 * g4 - (77 / 10000))
      + (1 / 1827904) * (s - 78) ^ 3 * (130 - s) ^ 1 * (1 * g0 + 117 * g1 + 13520 * g2 + 1537900 * g3 + 171366000 * g4 - (77 / 10000))
      + (1 / 7311616) * (s - 78) ^ 4 * (130 - s) ^ 0 * (1 * g0 + 130 * g1 + 16900 * g2 + 2197000 * g3 + 285610000 * g4 - (77 / 10000)) := by ring
  exact sub_nonneg.1 (le_of_le_of_eq (add_nonneg (add_nonneg (add_nonneg (add_nonneg D0 D1) D2) D3) D4) hE.symm)

theorem sec_low (d s : ℚ) (h0 : 368 ≤ d) (h0' : d ≤ 2048) (h1 : 79 ≤ s) (h1' : s ≤ 129) : 0 ≤ (1495165230337101 / 625000000000000) + (-126321873 / 1000000000) * s + (213993467 / 100000000000) * s ^ 2 + (-149515549 / 10000000000000) * s ^ 3 + (384468453 / 10000000000000000) * s ^ 4 + (-10888842605810707 / 250000000000000000) * d + (133311189 / 100000000000) * d * s + (-39050061 / 2500000000000) * d * s ^ 2 + (446533843 / 5000000000000000) * d * s ^ 3 + (-100498427 / 500000000000000000) * d * s ^ 4 + (739088707 / 1000000000000000) * d ^ 2 + (-12015869 / 125000000000000) * d ^ 2 * s + (215766569 / 100000000000000000) * d ^ 2 * s ^ 2 + (-45615507 / 2500000000000000000) * d ^ 2 * s ^ 3 + (272621909 / 5000000000000000000000) * d ^ 2 * s ^ 4 + (37364041 / 25000000000000000) * d ^ 3 + (-214132011 / 5000000000000000000) * d ^ 3 * s + (86107771 / 200000000000000000000) * d ^ 3 * s ^ 2 + (-75310559 / 50000000000000000000000) * d ^ 3 * s ^ 3 + (94933489 / 1000000000000000000000) * d ^ 4 + (-217539853 / 100000000000000000000000) * d ^ 4 * s + (30548829 / 2500000000000000000000000) * d ^ 4 * s ^ 2 := by
  have a0 : 0 ≤ d - 368 := by linarith
  have b0 : 0 ≤ 2048 - d := by linarith
  have a1 : 0 ≤ s - 79 := by linarith
  have b1 : 0 ≤ 129 - s := by linarith
  have hE : (1495165230337101 / 625000000000000) + (-126321873 / 1000000000) * s + (213993467 / 100000000000) * s ^ 2 + (-149515549 / 10000000000000) * s ^ 3 + (384468453 / 10000000000000000) * s ^ 4 + (-10888842605810707 / 250000000000000000) * d + (133311189 / 100000000000) * d * s + (-39050061 / 2500000000000) * d * s ^ 2 + (446533843 / 5000000000000000) * d * s ^ 3 + (-100498427 / 500000000000000000) * d * s ^ 4 + (739088707 / 1000000000000000) * d ^ 2 + (-12015869 / 125000000000000) * d ^ 2 * s + (215766569 / 100000000000000000) * d ^ 2 * s ^ 2 + (-45615507 / 2500000000000000000) * d ^ 2 * s ^ 3 + (272621909 / 5000000000000000000000) * d ^ 2 * s ^ 4 + (37364041 / 25000000000000000) * d ^ 3 + (-214132011 / 5000000000000000000) * d ^ 3 * s + (86107771 / 200000000000000000000) * d ^ 3 * s ^ 2 + (-75310559 / 50000000000000000000000) * d ^ 3 * s ^ 3 + (94933489 / 1000000000000000000000) * d ^ 4 + (-217539853 / 100000000000000000000000) * d ^ 4 * s + (30548829 / 2500000000000000000000000) * d ^ 4 * s ^ 2 - 0 = (733177686282487902913 / 972405000000000000000000000000000000000000) * (2048 - d) ^ 4 * (129 - s) ^ 4
      + (15576057675096329390963 / 243101250000000000000000000000000000000000) * (2048 - d) ^ 4 * (s - 79) ^ 1 * (129 - s) ^ 3
      + (74023212103314057534539 / 486202500000000000000000000000000000000000) * (2048 - d) ^ 4 * (s - 79) ^ 2 * (129 - s) ^ 2
      + (10660344525979849296521 / 81033750000000000000000000000000000000000) * (2048 - d) ^ 4 * (s - 79) ^ 3 * (129 - s) ^ 1
      + (5430597453641866057159 / 138915000000000000000000000000000000000000) * (2048 - d) ^ 4 * (s - 79) ^ 4
      + (3267332099264388588043 / 243101250000000000000000000000000000000000) * (d - 368) ^ 1 * (2048 - d) ^ 3 * (129 - s) ^ 4
      + (33228753121328655644093 / 60775312500000000000000000000000000000000) * (d - 368) ^ 1 * (2048 - d) ^ 3 * (s - 79) ^ 1 * (129 - s) ^ 3
      + (151413844398275339472929 / 121550625000000000000000000000000000000000) * (d - 368) ^ 1 * (2048 - d) ^ 3 * (s - 79) ^ 2 * (129 - s) ^ 2
      + (21736913358502479751231 / 20258437500000000000000000000000000000000) * (d - 368) ^ 1 * (2048 - d) ^ 3 * (s - 79) ^ 3 * (129 - s) ^ 1
      + (10854399989995593686749 / 34728750000000000000000000000000000000000) * (d - 368) ^ 1 * (2048 - d) ^ 3 * (s - 79) ^ 4
      + (3960210134318750909473 / 162067500000000000000000000000000000000000) * (d - 368) ^ 2 * (2048 - d) ^ 2 * (129 - s) ^ 4
      + (49864526397842113588523 / 40516875000000000000000000000000000000000) * (d - 368) ^ 2 * (2048 - d) ^ 2 * (s - 79) ^ 1 * (129 - s) ^ 3
      + (227838397516283753900219 / 81033750000000000000000000000000000000000) * (d - 368) ^ 2 * (2048 - d) ^ 2 * (s - 79) ^ 2 * (129 - s) ^ 2
      + (10879398833723468574347 / 4501875000000000000000000000000000000000) * (d - 368) ^ 2 * (2048 - d) ^ 2 * (s - 79) ^ 3 * (129 - s) ^ 1
      + (2340420973373846338177 / 3307500000000000000000000000000000000000) * (d - 368) ^ 2 * (2048 - d) ^ 2 * (s - 79) ^ 4
      + (4077678530486593205203 / 243101250000000000000000000000000000000000) * (d - 368) ^ 3 * (2048 - d) ^ 1 * (129 - s) ^ 4
      + (65776181745120625237253 / 60775312500000000000000000000000000000000) * (d - 368) ^ 3 * (2048 - d) ^ 1 * (s - 79) ^ 1 * (129 - s) ^ 3
      + (303905725386791675380409 / 121550625000000000000000000000000000000000) * (d - 368) ^ 3 * (2048 - d) ^ 1 * (s - 79) ^ 2 * (129 - s) ^ 2
      + (43333040828570940332951 / 20258437500000000000000000000000000000000) * (d - 368) ^ 3 * (2048 - d) ^ 1 * (s - 79) ^ 3 * (129 - s) ^ 1
      + (21775352904368383532629 / 34728750000000000000000000000000000000000) * (d - 368) ^ 3 * (2048 - d) ^ 1 * (s - 79) ^ 4
      + (4782778319636240693233 / 972405000000000000000000000000000000000000) * (d - 368) ^ 4 * (129 - s) ^ 4
      + (80677778307003487483283 / 243101250000000000000000000000000000000000) * (d - 368) ^ 4 * (s - 79) ^ 1 * (129 - s) ^ 3
      + (379437155206001407117499 / 486202500000000000000000000000000000000000) * (d - 368) ^ 4 * (s - 79) ^ 2 * (129 - s) ^ 2
      + (54072254165128433661961 / 81033750000000000000000000000000000000000) * (d - 368) ^ 4 * (s - 79) ^ 3 * (129 - s) ^ 1
      + (27183080411418036456919 / 138915000000000000000000000000000000000000) * (d - 368) ^ 4 * (s - 79) ^ 4 := by ring
  have p : 0 ≤ (733177686282487902913 / 972405000000000000000000000000000000000000) * (2048 - d) ^ 4 * (129 - s) ^ 4
      + (15576057675096329390963 / 243101250000000000000000000000000000000000) * (2048 - d) ^ 4 * (s - 79) ^ 1 * (129 - s) ^ 3
      + (74023212103314057534539 / 486202500000000000000000000000000000000000) * (2048 - d) ^ 4 * (s - 79) ^ 2 * (129 - s) ^ 2
      + (10660344525979849296521 / 81033750000000000000000000000000000000000) * (2048 - d) ^ 4 * (s - 79) ^ 3 * (129 - s) ^ 1
      + (5430597453641866057159 / 138915000000000000000000000000000000000000) * (2048 - d) ^ 4 * (s - 79) ^ 4
      + (3267332099264388588043 / 243101250000000000000000000000000000000000) * (d - 368) ^ 1 * (2048 - d) ^ 3 * (129 - s) ^ 4
      + (33228753121328655644093 / 60775312500000000000000000000000000000000) * (d - 368) ^ 1 * (2048 - d) ^ 3 * (s - 79) ^ 1 * (129 - s) ^ 3
      + (151413844398275339472929 / 121550625000000000000000000000000000000000) * (d - 368) ^ 1 * (2048 - d) ^ 3 * (s - 79) ^ 2 * (129 - s) ^ 2
      + (21736913358502479751231 / 20258437500000000000000000000000000000000) * (d - 368) ^ 1 * (2048 - d) ^ 3 * (s - 79) ^ 3 * (129 - s) ^ 1
      + (10854399989995593686749 / 34728750000000000000000000000000000000000) * (d - 368) ^ 1 * (2048 - d) ^ 3 * (s - 79) ^ 4
      + (3960210134318750909473 / 162067500000000000000000000000000000000000) * (d - 368) ^ 2 * (2048 - d) ^ 2 * (129 - s) ^ 4
      + (49864526397842113588523 / 40516875000000000000000000000000000000000) * (d - 368) ^ 2 * (2048 - d) ^ 2 * (s - 79) ^ 1 * (129 - s) ^ 3
      + (227838397516283753900219 / 81033750000000000000000000000000000000000) * (d - 368) ^ 2 * (2048 - d) ^ 2 * (s - 79) ^ 2 * (129 - s) ^ 2
      + (10879398833723468574347 / 4501875000000000000000000000000000000000) * (d - 368) ^ 2 * (2048 - d) ^ 2 * (s - 79) ^ 3 * (129 - s) ^ 1
      + (2340420973373846338177 / 3307500000000000000000000000000000000000) * (d - 368) ^ 2 * (2048 - d) ^ 2 * (s - 79) ^ 4
      + (4077678530486593205203 / 243101250000000000000000000000000000000000) * (d - 368) ^ 3 * (2048 - d) ^ 1 * (129 - s) ^ 4
      + (65776181745120625237253 / 60775312500000000000000000000000000000000) * (d - 368) ^ 3 * (2048 - d) ^ 1 * (s - 79) ^ 1 * (129 - s) ^ 3
      + (303905725386791675380409 / 121550625000000000000000000000000000000000) * (d - 368) ^ 3 * (2048 - d) ^ 1 * (s - 79) ^ 2 * (129 - s) ^ 2
      + (43333040828570940332951 / 20258437500000000000000000000000000000000) * (d - 368) ^ 3 * (2048 - d) ^ 1 * (s - 79) ^ 3 * (129 - s) ^ 1
      + (21775352904368383532629 / 34728750000000000000000000000000000000000) * (d - 368) ^ 3 * (2048 - d) ^ 1 * (s - 79) ^ 4
      + (4782778319636240693233 / 972405000000000000000000000000000000000000) * (d - 368) ^ 4 * (129 - s) ^ 4
      + (80677778307003487483283 / 243101250000000000000000000000000000000000) * (d - 368) ^ 4 * (s - 79) ^ 1 * (129 - s) ^ 3
      + (379437155206001407117499 / 486202500000000000000000000000000000000000) * (d - 368) ^ 4 * (s - 79) ^ 2 * (129 - s) ^ 2
      + (54072254165128433661961 / 81033750000000000000000000000000000000000) * (d - 368) ^ 4 * (s - 79) ^ 3 * (129 - s) ^ 1
      + (27183080411418036456919 / 138915000000000000000000000000000000000000) * (d - 368) ^ 4 * (s - 79) ^ 4 := by positivity
  exact sub_nonneg.1 (le_of_le_of_eq p hE.symm)

theorem sec_high (d s : ℚ) (h0 : 368 ≤ d) (h0' : d ≤ 2048) (h1 : 79 ≤ s) (h1' : s ≤ 129) : 0 ≤ (-21572126494489061 / 10000000000000000) + (126321873 / 1000000000) * s + (-213993467 / 100000000000) * s ^ 2 + (149515549 / 10000000000000) * s ^ 3 + (-384468453 / 10000000000000000) * s ^ 4 + (96528162594846867 / 2000000000000000000) * d + (-133311189 / 100000000000) * d * s + (39050061 / 2500000000000) * d * s ^ 2 + (-446533843 / 5000000000000000) * d * s ^ 3 + (100498427 / 500000000000000000) * d * s ^ 4 + (-739088707 / 1000000000000000) * d ^ 2 + (12015869 / 125000000000000) * d ^ 2 * s + (-215766569 / 100000000000000000) * d ^ 2 * s ^ 2 + (45615507 / 2500000000000000000) * d ^ 2 * s ^ 3 + (-272621909 / 5000000000000000000000) * d ^ 2 * s ^ 4 + (-37364041 / 25000000000000000) * d ^ 3 + (214132011 / 5000000000000000000) * d ^ 3 * s + (-86107771 / 200000000000000000000) * d ^ 3 * s ^ 2 + (75310559 / 50000000000000000000000) * d ^ 3 * s ^ 3 + (-94933489 / 1000000000000000000000) * d ^ 4 + (217539853 / 100000000000000000000000) * d ^ 4 * s + (-30548829 / 2500000000000000000000000) * d ^ 4 * s ^ 2 := by
  have a0 : 0 ≤ d - 368 := by linarith
  have b0 : 0 ≤ 2048 - d := by linarith
  have a1 : 0 ≤ s - 79 := by linarith
  have b1 : 0 ≤ 129 - s := by linarith
  have hE : (-21572126494489061 / 10000000000000000) + (126321873 / 1000000000) * s + (-213993467 / 100000000000) * s ^ 2 + (149515549 / 10000000000000) * s ^ 3 + (-384468453 / 10000000000000000) * s ^ 4 + (96528162594846867 / 2000000000000000000) * d + (-133311189 / 100000000000) * d * s + (39050061 / 2500000000000) * d * s ^ 2 + (-446533843 / 5000000000000000) * d * s ^ 3 + (100498427 / 500000000000000000) * d * s ^ 4 + (-739088707 / 1000000000000000) * d ^ 2 + (12015869 / 125000000000000) * d ^ 2 * s + (-215766569 / 100000000000000000) * d ^ 2 * s ^ 2 + (45615507 / 2500000000000000000) * d ^ 2 * s ^ 3 + (-272621909 / 5000000000000000000000) * d ^ 2 * s ^ 4 + (-37364041 / 25000000000000000) * d ^ 3 + (214132011 / 5000000000000000000) * d ^ 3 * s + (-86107771 / 200000000000000000000) * d ^ 3 * s ^ 2 + (75310559 / 50000000000000000000000) * d ^ 3 * s ^ 3 + (-94933489 / 1000000000000000000000) * d ^ 4 + (217539853 / 100000000000000000000000) * d ^ 4 * s + (-30548829 / 2500000000000000000000000) * d ^ 4 * s ^ 2 - 0 = (224413902442714720909 / 5788125000000000000000000000000000000000) * (2048 - d) ^ 4 * (129 - s) ^ 4
      + (11429327810781115812331 / 121550625000000000000000000000000000000000) * (2048 - d) ^ 4 * (s - 79) ^ 1 * (129 - s) ^ 3
      + (2580057986666351594521 / 30387656250000000000000000000000000000000) * (2048 - d) ^ 4 * (s - 79) ^ 2 * (129 - s) ^ 2
      + (3226839859359506563031 / 121550625000000000000000000000000000000000) * (2048 - d) ^ 4 * (s - 79) ^ 3 * (129 - s) ^ 1
      + (1946903338729160257 / 4501875000000000000000000000000000000000) * (2048 - d) ^ 4 * (s - 79) ^ 4
      + (7027954770205423992359 / 23152500000000000000000000000000000000000) * (d - 368) ^ 1 * (2048 - d) ^ 3 * (129 - s) ^ 4
      + (87664208130185369727439 / 121550625000000000000000000000000000000000) * (d - 368) ^ 1 * (2048 - d) ^ 3 * (s - 79) ^ 1 * (129 - s) ^ 3
      + (159537454321977364101017 / 243101250000000000000000000000000000000000) * (d - 368) ^ 1 * (2048 - d) ^ 3 * (s - 79) ^ 2 * (129 - s) ^ 2
      + (23700234221827802508239 / 121550625000000000000000000000000000000000) * (d - 368) ^ 1 * (2048 - d) ^ 3 * (s - 79) ^ 3 * (129 - s) ^ 1
      + (240012723656041044571 / 54022500000000000000000000000000000000000) * (d - 368) ^ 1 * (2048 - d) ^ 3 * (s - 79) ^ 4
      + (1773441126061355064929 / 2572500000000000000000000000000000000000) * (d - 368) ^ 2 * (2048 - d) ^ 2 * (129 - s) ^ 4
      + (65822474678342006411477 / 40516875000000000000000000000000000000000) * (d - 368) ^ 2 * (2048 - d) ^ 2 * (s - 79) ^ 1 * (129 - s) ^ 3
      + (119222605712268606099781 / 81033750000000000000000000000000000000000) * (d - 368) ^ 2 * (2048 - d) ^ 2 * (s - 79) ^ 2 * (129 - s) ^ 2
      + (17772411572672902830877 / 40516875000000000000000000000000000000000) * (d - 368) ^ 2 * (2048 - d) ^ 2 * (s - 79) ^ 3 * (129 - s) ^ 1
      + (335457793621883143109 / 54022500000000000000000000000000000000000) * (d - 368) ^ 2 * (2048 - d) ^ 2 * (s - 79) ^ 4
      + (41714692887813496123 / 67500000000000000000000000000000000000) * (d - 368) ^ 3 * (2048 - d) ^ 1 * (129 - s) ^ 4
      + (177073926441652548509869 / 121550625000000000000000000000000000000000) * (d - 368) ^ 3 * (2048 - d) ^ 1 * (s - 79) ^ 1 * (129 - s) ^ 3
      + (318067419022098046192307 / 243101250000000000000000000000000000000000) * (d - 368) ^ 3 * (2048 - d) ^ 1 * (s - 79) ^ 2 * (129 - s) ^ 2
      + (48628044960468156986669 / 121550625000000000000000000000000000000000) * (d - 368) ^ 3 * (2048 - d) ^ 1 * (s - 79) ^ 3 * (129 - s) ^ 1
      + (419038807859603280841 / 54022500000000000000000000000000000000000) * (d - 368) ^ 3 * (2048 - d) ^ 1 * (s - 79) ^ 4
      + (4479916917525558054551 / 23152500000000000000000000000000000000000) * (d - 368) ^ 4 * (129 - s) ^ 4
      + (28065377637176547875273 / 60775312500000000000000000000000000000000) * (d - 368) ^ 4 * (s - 79) ^ 1 * (129 - s) ^ 3
      + (99690355680563814917813 / 243101250000000000000000000000000000000000) * (d - 368) ^ 4 * (s - 79) ^ 2 * (129 - s) ^ 2
      + (7680631590081094499623 / 60775312500000000000000000000000000000000) * (d - 368) ^ 4 * (s - 79) ^ 3 * (129 - s) ^ 1
      + (16405715899897677691 / 6002500000000000000000000000000000000000) * (d - 368) ^ 4 * (s - 79) ^ 4 := by ring
  have p : 0 ≤ (224413902442714720909 / 5788125000000000000000000000000000000000) * (2048 - d) ^ 4 * (129 - s) ^ 4
      + (11429327810781115812331 / 121550625000000000000000000000000000000000) * (2048 - d) ^ 4 * (s - 79) ^ 1 * (129 - s) ^ 3
      + (2580057986666351594521 / 30387656250000000000000000000000000000000) * (2048 - d) ^ 4 * (s - 79) ^ 2 * (129 - s) ^ 2
      + (3226839859359506563031 / 121550625000000000000000000000000000000000) * (2048 - d) ^ 4 * (s - 79) ^ 3 * (129 - s) ^ 1
      + (1946903338729160257 / 4501875000000000000000000000000000000000) * (2048 - d) ^ 4 * (s - 79) ^ 4
      + (7027954770205423992359 / 23152500000000000000000000000000000000000) * (d - 368) ^ 1 * (2048 - d) ^ 3 * (129 - s) ^ 4
      + (87664208130185369727439 / 121550625000000000000000000000000000000000) * (d - 368) ^ 1 * (2048 - d) ^ 3 * (s - 79) ^ 1 * (129 - s) ^ 3
      + (159537454321977364101017 / 243101250000000000000000000000000000000000) * (d - 368) ^ 1 * (2048 - d) ^ 3 * (s - 79) ^ 2 * (129 - s) ^ 2
      + (23700234221827802508239 / 121550625000000000000000000000000000000000) * (d - 368) ^ 1 * (2048 - d) ^ 3 * (s - 79) ^ 3 * (129 - s) ^ 1
      + (240012723656041044571 / 54022500000000000000000000000000000000000) * (d - 368) ^ 1 * (2048 - d) ^ 3 * (s - 79) ^ 4
      + (1773441126061355064929 / 2572500000000000000000000000000000000000) * (d - 368) ^ 2 * (2048 - d) ^ 2 * (129 - s) ^ 4
      + (65822474678342006411477 / 40516875000000000000000000000000000000000) * (d - 368) ^ 2 * (2048 - d) ^ 2 * (s - 79) ^ 1 * (129 - s) ^ 3
      + (119222605712268606099781 / 81033750000000000000000000000000000000000) * (d - 368) ^ 2 * (2048 - d) ^ 2 * (s - 79) ^ 2 * (129 - s) ^ 2
      + (17772411572672902830877 / 40516875000000000000000000000000000000000) * (d - 368) ^ 2 * (2048 - d) ^ 2 * (s - 79) ^ 3 * (129 - s) ^ 1
      + (335457793621883143109 / 54022500000000000000000000000000000000000) * (d - 368) ^ 2 * (2048 - d) ^ 2 * (s - 79) ^ 4
      + (41714692887813496123 / 67500000000000000000000000000000000000) * (d - 368) ^ 3 * (2048 - d) ^ 1 * (129 - s) ^ 4
      + (177073926441652548509869 / 121550625000000000000000000000000000000000) * (d - 368) ^ 3 * (2048 - d) ^ 1 * (s - 79) ^ 1 * (129 - s) ^ 3
      + (318067419022098046192307 / 243101250000000000000000000000000000000000) * (d - 368) ^ 3 * (2048 - d) ^ 1 * (s - 79) ^ 2 * (129 - s) ^ 2
      + (48628044960468156986669 / 121550625000000000000000000000000000000000) * (d - 368) ^ 3 * (2048 - d) ^ 1 * (s - 79) ^ 3 * (129 - s) ^ 1
      + (419038807859603280841 / 54022500000000000000000000000000000000000) * (d - 368) ^ 3 * (2048 - d) ^ 1 * (s - 79) ^ 4
      + (4479916917525558054551 / 23152500000000000000000000000000000000000) * (d - 368) ^ 4 * (129 - s) ^ 4
      + (28065377637176547875273 / 60775312500000000000000000000000000000000) * (d - 368) ^ 4 * (s - 79) ^ 1 * (129 - s) ^ 3
      + (99690355680563814917813 / 243101250000000000000000000000000000000000) * (d - 368) ^ 4 * (s - 79) ^ 2 * (129 - s) ^ 2
      + (7680631590081094499623 / 60775312500000000000000000000000000000000) * (d - 368) ^ 4 * (s - 79) ^ 3 * (129 - s) ^ 1
      + (16405715899897677691 / 6002500000000000000000000000000000000000) * (d - 368) ^ 4 * (s - 79) ^ 4 := by positivity
  exact sub_nonneg.1 (le_of_le_of_eq p hE.symm)

theorem eval_expanded (d s : ℚ) : evalPoly2d levelCoeffs d s = (289630547 / 100000000) + (-126321873 / 1000000000) * s + (213993467 / 100000000000) * s ^ 2 + (-149515549 / 10000000000000) * s ^ 3 + (384468453 / 10000000000000000) * s ^ 4 + (-560568533 / 10000000000) * d + (133311189 / 100000000000) * d * s + (-39050061 / 2500000000000) * d * s ^ 2 + (446533843 / 5000000000000000) * d * s ^ 3 + (-100498427 / 500000000000000000) * d * s ^ 4 + (739088707 / 1000000000000000) * d ^ 2 + (-12015869 / 125000000000000) * d ^ 2 * s + (215766569 / 100000000000000000) * d ^ 2 * s ^ 2 + (-45615507 / 2500000000000000000) * d ^ 2 * s ^ 3 + (272621909 / 5000000000000000000000) * d ^ 2 * s ^ 4 + (37364041 / 25000000000000000) * d ^ 3 + (-214132011 / 5000000000000000000) * d ^ 3 * s + (86107771 / 200000000000000000000) * d ^ 3 * s ^ 2 + (-75310559 / 50000000000000000000000) * d ^ 3 * s ^ 3 + (94933489 / 1000000000000000000000) * d ^ 4 + (-217539853 / 100000000000000000000000) * d ^ 4 * s + (30548829 / 2500000000000000000000000) * d ^ 4 * s ^ 2 := by
  simp only [evalPoly2d, levelCoeffs, evalRows, evalRow]
  ring

/-- each bit of security needs at least 0.024 decades of noise -/
theorem eval_level_mono (d s t : ℚ) (h : 368 ≤ d) (h' : d ≤ 2048) (h0 : 78 ≤ s) (h0' : s ≤ 130) (h1 : 78 ≤ t) (h1' : t ≤ 130) (hst : s ≤ t) :
    3 / 125 * (t - s) ≤ evalPoly2d levelCoeffs d t - evalPoly2d levelCoeffs d s := by
  have key := mul_le_mul_of_nonneg_right (sec_level d s t h h' h0 h0' h1 h1') (sub_nonneg.2 hst)
  refine le_of_le_of_eq key ?_
  rw [eval_expanded, eval_expanded]
  ring

/-- each dimension takes at least 0.0077 decades off the noise -/
theorem eval_dim_mono (d e s : ℚ) (h0 : 368 ≤ d) (h0' : d ≤ 2048) (h1 : 368 ≤ e) (h1' : e ≤ 2048) (h : 78 ≤ s) (h' : s ≤ 130) (hde : d ≤ e) :
    77 / 10000 * (e - d) ≤ evalPoly2d levelCoeffs d s - evalPoly2d levelCoeffs e s := by
  have key := mul_le_mul_of_nonneg_right (sec_dim s d e h h' h0 h0' h1 h1') (sub_nonneg.2 hde)
  refine le_of_le_of_eq key ?_
  rw [eval_expanded, eval_expanded]
  ring

end Spf.Stats
