.lake/
lake-manifest.json
*.olean
__pycache__/
