.lake
lean/.lake
