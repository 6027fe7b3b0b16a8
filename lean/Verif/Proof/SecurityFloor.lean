import Verif.Proof.Security
/-! C115: the lower bound of the standard deviations, by a univariate Bernstein expansion along the boundary of the region. -/
namespace Spf.Stats
set_option maxHeartbeats 4000000

theorem sec_floor (s : ℚ) (h0 : 78 ≤ s) (h0' : s ≤ 113) : (-1767 / 100) ≤ (-59331590895554298038854128293483568025159347845254074771968635676791235785563151 / 103945169789543177281690154241225678713731387983143262279014809600000000000000000) + (-10701231000994509955406678256332775827599028849734549822962711433686888267756514573 / 10394516978954317728169015424122567871373138798314326227901480960000000000000000000) * s + (6433493245687134074143677823382401104887159993079274094289261141025166151291045789 / 259862924473857943204225385603064196784328469957858155697537024000000000000000000000) * s ^ 2 + (-493414861490589665774556722705689041864188352163344166797051578078946928760949 / 1624143277961612145026408660019151229902052937236613473109606400000000000000000000) * s ^ 3 + (2778235796637781861064894959123156338123008636240558465228306342694591017 / 1371742633413523771137169476367526376606463629422815433369600000000000000000000) * s ^ 4 + (-17784507755336100423172392957682739916601996008444699923 / 2537723871815018976603763531279923796721957714432208551733760000) * s ^ 5 + (9773753214912243992472711784540434962890625000 / 991298387427741787735845129406220233094514732200081465521) * s ^ 6 := by
  have a0 : 0 ≤ s - 78 := by linarith
  have b0 : 0 ≤ 113 - s := by linarith
  have hE : (-59331590895554298038854128293483568025159347845254074771968635676791235785563151 / 103945169789543177281690154241225678713731387983143262279014809600000000000000000) + (-10701231000994509955406678256332775827599028849734549822962711433686888267756514573 / 10394516978954317728169015424122567871373138798314326227901480960000000000000000000) * s + (6433493245687134074143677823382401104887159993079274094289261141025166151291045789 / 259862924473857943204225385603064196784328469957858155697537024000000000000000000000) * s ^ 2 + (-493414861490589665774556722705689041864188352163344166797051578078946928760949 / 1624143277961612145026408660019151229902052937236613473109606400000000000000000000) * s ^ 3 + (2778235796637781861064894959123156338123008636240558465228306342694591017 / 1371742633413523771137169476367526376606463629422815433369600000000000000000000) * s ^ 4 + (-17784507755336100423172392957682739916601996008444699923 / 2537723871815018976603763531279923796721957714432208551733760000) * s ^ 5 + (9773753214912243992472711784540434962890625000 / 991298387427741787735845129406220233094514732200081465521) * s ^ 6 - (-1767 / 100) = (26838580413311637102881557014129742519960098167349357623696823882188109952392948313 / 292589462279261864226887052177720719665330771082330205824866627635200000000000000000000000000000) * (113 - s) ^ 8
      + (483524371961498499311838199586920091807313508279212441848056858902453144779079195173 / 585178924558523728453774104355441439330661542164660411649733255270400000000000000000000000000000) * (s - 78) ^ 1 * (113 - s) ^ 7
      + (16284289948501600499755667845038807511028176948615508799371123335218036228658069359 / 5224811826415390432622983074602155708309478055041610818301189779200000000000000000000000000000) * (s - 78) ^ 2 * (113 - s) ^ 6
      + (534672965936673311807002546855180425278616481854541114038724220724494821506271505953 / 83596989222646246921967729193634491332951648880665773092819036467200000000000000000000000000000) * (s - 78) ^ 3 * (113 - s) ^ 5
      + (65668000656290615488872173196300749217108052919497364249719767458308751221054829321 / 8359698922264624692196772919363449133295164888066577309281903646720000000000000000000000000000) * (s - 78) ^ 4 * (113 - s) ^ 4
      + (498091210305880619941028982211707334000647934299765526294333485959917462292951505333 / 83596989222646246921967729193634491332951648880665773092819036467200000000000000000000000000000) * (s - 78) ^ 5 * (113 - s) ^ 3
      + (57307743850708905239787215411592336190872093526496554248145750705925347129609292281 / 20899247305661561730491932298408622833237912220166443273204759116800000000000000000000000000000) * (s - 78) ^ 6 * (113 - s) ^ 2
      + (410594143469584332604641098619925593793010491931778526501492048407042411724943673313 / 585178924558523728453774104355441439330661542164660411649733255270400000000000000000000000000000) * (s - 78) ^ 7 * (113 - s) ^ 1
      + (11143310077491348259801983434204053934529143901195683368882162736015740120299011579 / 146294731139630932113443526088860359832665385541165102912433313817600000000000000000000000000000) * (s - 78) ^ 8 := by ring
  have p : 0 ≤ (26838580413311637102881557014129742519960098167349357623696823882188109952392948313 / 292589462279261864226887052177720719665330771082330205824866627635200000000000000000000000000000) * (113 - s) ^ 8
      + (483524371961498499311838199586920091807313508279212441848056858902453144779079195173 / 585178924558523728453774104355441439330661542164660411649733255270400000000000000000000000000000) * (s - 78) ^ 1 * (113 - s) ^ 7
      + (16284289948501600499755667845038807511028176948615508799371123335218036228658069359 / 5224811826415390432622983074602155708309478055041610818301189779200000000000000000000000000000) * (s - 78) ^ 2 * (113 - s) ^ 6
      + (534672965936673311807002546855180425278616481854541114038724220724494821506271505953 / 83596989222646246921967729193634491332951648880665773092819036467200000000000000000000000000000) * (s - 78) ^ 3 * (113 - s) ^ 5
      + (65668000656290615488872173196300749217108052919497364249719767458308751221054829321 / 8359698922264624692196772919363449133295164888066577309281903646720000000000000000000000000000) * (s - 78) ^ 4 * (113 - s) ^ 4
      + (498091210305880619941028982211707334000647934299765526294333485959917462292951505333 / 83596989222646246921967729193634491332951648880665773092819036467200000000000000000000000000000) * (s - 78) ^ 5 * (113 - s) ^ 3
      + (57307743850708905239787215411592336190872093526496554248145750705925347129609292281 / 20899247305661561730491932298408622833237912220166443273204759116800000000000000000000000000000) * (s - 78) ^ 6 * (113 - s) ^ 2
      + (410594143469584332604641098619925593793010491931778526501492048407042411724943673313 / 585178924558523728453774104355441439330661542164660411649733255270400000000000000000000000000000) * (s - 78) ^ 7 * (113 - s) ^ 1
      + (11143310077491348259801983434204053934529143901195683368882162736015740120299011579 / 146294731139630932113443526088860359832665385541165102912433313817600000000000000000000000000000) * (s - 78) ^ 8 := by positivity
  exact sub_nonneg.1 (le_of_le_of_eq p hE.symm)

theorem eval_floor (d s : ℚ) (h0 : 368 ≤ d) (h0' : d ≤ 2048) (h : 78 ≤ s) (h' : s ≤ 130) (hr : 0.05678074392712544 * d - s ≤ 3.5151045883938177) :
    -17.67 ≤ evalPoly2d levelCoeffs d s := by
  rcases le_or_gt 112 s with hs | hs
  · have g1 := eval_dim_mono d 2048 s h0 h0' (by norm_num) (by norm_num) h h' h0'
    have g2 := eval_level_mono 2048 112 s (by norm_num) (by norm_num) (by norm_num) (by norm_num) h h' hs
    have g3 : -17.67 ≤ evalPoly2d levelCoeffs 2048 112 := by
      rw [eval_expanded]; norm_num
    linarith
  · have hd : d ≤ (s + 3.5151045883938177) / 0.05678074392712544 := by
      rw [le_div_iff₀ (by norm_num)]; linarith
    have hd2 : (s + 3.5151045883938177) / 0.05678074392712544 ≤ 2048 := by
      rw [div_le_iff₀ (by norm_num)]; linarith
    have g1 := eval_dim_mono d _ s h0 h0' (le_trans h0 hd) hd2 h h' hd
    have g2 := sec_floor s h (by linarith)
    have g3 : evalPoly2d levelCoeffs ((s + 3.5151045883938177) / 0.05678074392712544) s = (-59331590895554298038854128293483568025159347845254074771968635676791235785563151 / 103945169789543177281690154241225678713731387983143262279014809600000000000000000) + (-10701231000994509955406678256332775827599028849734549822962711433686888267756514573 / 10394516978954317728169015424122567871373138798314326227901480960000000000000000000) * s + (6433493245687134074143677823382401104887159993079274094289261141025166151291045789 / 259862924473857943204225385603064196784328469957858155697537024000000000000000000000) * s ^ 2 + (-493414861490589665774556722705689041864188352163344166797051578078946928760949 / 1624143277961612145026408660019151229902052937236613473109606400000000000000000000) * s ^ 3 + (2778235796637781861064894959123156338123008636240558465228306342694591017 / 1371742633413523771137169476367526376606463629422815433369600000000000000000000) * s ^ 4 + (-17784507755336100423172392957682739916601996008444699923 / 2537723871815018976603763531279923796721957714432208551733760000) * s ^ 5 + (9773753214912243992472711784540434962890625000 / 991298387427741787735845129406220233094514732200081465521) * s ^ 6 := by
      rw [eval_expanded]; ring
    rw [g3] at g1
    linarith

end Spf.Stats
